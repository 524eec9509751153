import Verif.Props.MSValue
import Verif.Lemmas.RGWShape
import Verif.Lemmas.EuropeanPDE
import Verif.Props.ImpliedVolAccuracy
import Mathlib.Analysis.Complex.ExponentialBounds

/-!
# The shape of the Miltersen–Schwartz price (C135)
-/
set_option linter.unusedSimpArgs false
namespace Verif.Props
open Verif Verif.Spec Real MeasureTheory

/-- Without discounting and carry: parity of the two values. -/
theorem bsPut_flat (S K σ : ℝ) : bsPut S K 1 0 0 σ = bsCall S K 1 0 0 σ - (S - K) := by
  rw [bsPut_eq_call zero_le_one]; simp

/-- Both prices of one object, near `Pt` times the two values. -/
theorem ms_pair (Pt FT K t T σS σE σF ρSE ρSF ρEF κE κF : ℝ) {F v : ℝ} (hP : 0 ≤ Pt) (hFT : 0 < FT) (hK : 0 < K)
    (hE : κE ≠ 0) (hF : κF ≠ 0) (hEF : κE + κF ≠ 0) (hv : 0 < MS.variance σS σE σF ρSE ρSF ρEF κE κF t T)
    (hFe : F = FT * exp (-MS.covariance σS σE σF ρSE ρSF ρEF κE κF t T))
    (hve : v = √(MS.variance σS σE σF ρSE ρSF ρEF κE κF t T)) :
    ∃ a c p, msCls.construct (msKw Pt FT K t T σS σE σF ρSE ρSF ρEF κE κF) = (a, none) ∧
      MSClass.call.run a = .ok (.num c) ∧ MSClass.put.run a = .ok (.num p) ∧
      |c - Pt * bsCall F K 1 0 0 v| ≤ 7.5e-8 * Pt * (F + K) ∧
      |p - Pt * (bsCall F K 1 0 0 v - (F - K))| ≤ 7.5e-8 * Pt * (F + K) := by
  obtain ⟨a, c, h1, h2, h3⟩ := C16_price Pt FT K t T σS σE σF ρSE ρSF ρEF κE κF hFT hK hE hF hEF hv true
  obtain ⟨a', p, h1', h2', h3'⟩ := C16_price Pt FT K t T σS σE σF ρSE ρSF ρEF κE κF hFT hK hE hF hEF hv false
  obtain rfl : a = a' := by rw [h1] at h1'; exact (Prod.mk.inj h1').1
  simp only [if_true, Bool.false_eq_true, if_false, bsPrice, abs_of_nonneg hP, ← hFe, ← hve, bsPut_flat] at h2 h3 h2' h3'
  exact ⟨a, c, p, h1, h2, h2', h3, h3'⟩

section
variable (Pt FT K t T σS σE σF ρSE ρSF ρEF κE κF : ℝ)

/-- **C135 (bounds).** With `F = FT e^{-vxz}`: the call lies between `Pt (F - K)`, zero and `Pt F`, the put between
`Pt (K - F)`, zero and `Pt K`, up to the error of the coded normal distribution. -/
theorem C135_bounds (hP : 0 ≤ Pt) (hFT : 0 < FT) (hK : 0 < K) (hE : κE ≠ 0) (hF : κF ≠ 0) (hEF : κE + κF ≠ 0)
    (hv : 0 < MS.variance σS σE σF ρSE ρSF ρEF κE κF t T) {F : ℝ}
    (hFe : F = FT * exp (-MS.covariance σS σE σF ρSE ρSF ρEF κE κF t T)) :
    ∃ a c p, msCls.construct (msKw Pt FT K t T σS σE σF ρSE ρSF ρEF κE κF) = (a, none) ∧
      MSClass.call.run a = .ok (.num c) ∧ MSClass.put.run a = .ok (.num p) ∧
      max (Pt * (F - K)) 0 - 7.5e-8 * Pt * (F + K) ≤ c ∧ c ≤ Pt * F + 7.5e-8 * Pt * (F + K) ∧
      max (Pt * (K - F)) 0 - 7.5e-8 * Pt * (F + K) ≤ p ∧ p ≤ Pt * K + 7.5e-8 * Pt * (F + K) := by
  obtain ⟨a, c, p, h, hc, hp, e1, e2⟩ := ms_pair Pt FT K t T σS σE σF ρSE ρSF ρEF κE κF hP hFT hK hE hF hEF hv hFe rfl
  set v := √(MS.variance σS σE σF ρSE ρSF ρEF κE κF t T)
  have hF0 : 0 < F := by rw [hFe]; positivity
  have b1 := bsCall_nonneg F K 1 0 0 v
  have b2 : F - K ≤ bsCall F K 1 0 0 v := by
    have := bsCall_ge (S := F) (K := K) (r := 0) (b := 0) (σ := v) zero_le_one
    simpa using this
  have b3 := bsCall_le_spot (S := F) (K := K) (r := 0) (σ := v) zero_le_one hF0.le hK.le
  rw [abs_le] at e1 e2
  have m1 := mul_le_mul_of_nonneg_left b2 hP
  have m2 := mul_le_mul_of_nonneg_left b3 hP
  have m3 := mul_nonneg hP b1
  refine ⟨a, c, p, h, hc, hp, ?_, by linarith [e1.2], ?_, by linarith [e2.2]⟩
  · rw [sub_le_iff_le_add]; exact max_le (by linarith [e1.1]) (by linarith [e1.1])
  · rw [sub_le_iff_le_add]; exact max_le (by linarith [e2.1]) (by linarith [e2.1])

/-- **C135 (strike).** A higher strike lowers the call and raises the put, each by at most `Pt` times the difference, up to
the error of the coded normal distribution. -/
theorem C135_strike {K' : ℝ} (hP : 0 ≤ Pt) (hFT : 0 < FT) (hK : 0 < K) (hKK : K ≤ K') (hE : κE ≠ 0) (hF : κF ≠ 0)
    (hEF : κE + κF ≠ 0) (hv : 0 < MS.variance σS σE σF ρSE ρSF ρEF κE κF t T) {ε : ℝ}
    (hε : ε = 1.5e-7 * Pt * (FT * exp (-MS.covariance σS σE σF ρSE ρSF ρEF κE κF t T) + K')) :
    ∃ a c p a' c' p', msCls.construct (msKw Pt FT K t T σS σE σF ρSE ρSF ρEF κE κF) = (a, none) ∧
      msCls.construct (msKw Pt FT K' t T σS σE σF ρSE ρSF ρEF κE κF) = (a', none) ∧
      MSClass.call.run a = .ok (.num c) ∧ MSClass.put.run a = .ok (.num p) ∧
      MSClass.call.run a' = .ok (.num c') ∧ MSClass.put.run a' = .ok (.num p') ∧
      c' ≤ c + ε ∧ c ≤ c' + Pt * (K' - K) + ε ∧ p ≤ p' + ε ∧ p' ≤ p + Pt * (K' - K) + ε := by
  obtain ⟨a, c, p, h, hc, hp, e1, e2⟩ := ms_pair Pt FT K t T σS σE σF ρSE ρSF ρEF κE κF hP hFT hK hE hF hEF hv rfl rfl
  obtain ⟨a', c', p', h', hc', hp', e1', e2'⟩ := ms_pair Pt FT K' t T σS σE σF ρSE ρSF ρEF κE κF hP hFT (hK.trans_le hKK)
    hE hF hEF hv rfl rfl
  set v := √(MS.variance σS σE σF ρSE ρSF ρEF κE κF t T)
  set F := FT * exp (-MS.covariance σS σE σF ρSE ρSF ρEF κE κF t T)
  obtain ⟨b1, b2⟩ := bsCall_strike' (x := F) (t := 1) (r := 0) (b := 0) (σ := v) hKK
  simp only [neg_zero, zero_mul, exp_zero, mul_one] at b2
  rw [abs_le] at e1 e2 e1' e2'
  have m1 := mul_le_mul_of_nonneg_left b1 hP
  have m2 := mul_le_mul_of_nonneg_left b2 hP
  have m3 : 7.5e-8 * Pt * (F + K) ≤ 7.5e-8 * Pt * (F + K') := mul_le_mul_of_nonneg_left (by linarith) (by positivity)
  have m4 : ε = 7.5e-8 * Pt * (F + K') + 7.5e-8 * Pt * (F + K') := by rw [hε]; ring
  refine ⟨a, c, p, a', c', p', h, h', hc, hp, hc', hp', ?_, ?_, ?_, ?_⟩ <;> linarith [e1.1, e1.2, e2.1, e2.2, e1'.1, e1'.2, e2'.1, e2'.2]

/-- **C135 (futures price).** A higher futures price raises the call and lowers the put, each by at most `Pt` times the
difference discounted by the covariance, up to the error of the coded normal distribution. -/
theorem C135_futures {FT' : ℝ} (hP : 0 ≤ Pt) (hFT : 0 < FT) (hFF : FT ≤ FT') (hK : 0 < K) (hE : κE ≠ 0) (hF : κF ≠ 0)
    (hEF : κE + κF ≠ 0) (hv : 0 < MS.variance σS σE σF ρSE ρSF ρEF κE κF t T) {g ε : ℝ}
    (hg : g = exp (-MS.covariance σS σE σF ρSE ρSF ρEF κE κF t T)) (hε : ε = 1.5e-7 * Pt * (FT' * g + K)) :
    ∃ a c p a' c' p', msCls.construct (msKw Pt FT K t T σS σE σF ρSE ρSF ρEF κE κF) = (a, none) ∧
      msCls.construct (msKw Pt FT' K t T σS σE σF ρSE ρSF ρEF κE κF) = (a', none) ∧
      MSClass.call.run a = .ok (.num c) ∧ MSClass.put.run a = .ok (.num p) ∧
      MSClass.call.run a' = .ok (.num c') ∧ MSClass.put.run a' = .ok (.num p') ∧
      c ≤ c' + ε ∧ c' ≤ c + Pt * g * (FT' - FT) + ε ∧ p' ≤ p + ε ∧ p ≤ p' + Pt * g * (FT' - FT) + ε := by
  obtain ⟨a, c, p, h, hc, hp, e1, e2⟩ := ms_pair Pt FT K t T σS σE σF ρSE ρSF ρEF κE κF hP hFT hK hE hF hEF hv rfl rfl
  obtain ⟨a', c', p', h', hc', hp', e1', e2'⟩ := ms_pair Pt FT' K t T σS σE σF ρSE ρSF ρEF κE κF hP (hFT.trans_le hFF) hK
    hE hF hEF hv rfl rfl
  rw [← hg] at e1 e2 e1' e2'
  have hg0 : 0 < g := by rw [hg]; exact exp_pos _
  set v := √(MS.variance σS σE σF ρSE ρSF ρEF κE κF t T)
  have hle : FT * g ≤ FT' * g := mul_le_mul_of_nonneg_right hFF hg0.le
  obtain ⟨b1, b2⟩ := bsCall_lipschitz (K := K) (t := 1) (r := 0) (σ := v) zero_le_one hle
  rw [abs_le] at e1 e2 e1' e2'
  have m1 := mul_le_mul_of_nonneg_left b1 hP
  have m2 := mul_le_mul_of_nonneg_left b2 hP
  have m3 : 7.5e-8 * Pt * (FT * g + K) ≤ 7.5e-8 * Pt * (FT' * g + K) := mul_le_mul_of_nonneg_left (by linarith) (by positivity)
  have m4 : ε = 7.5e-8 * Pt * (FT' * g + K) + 7.5e-8 * Pt * (FT' * g + K) := by rw [hε]; ring
  have m5 : Pt * g * (FT' - FT) = Pt * (FT' * g) - Pt * (FT * g) := by ring
  refine ⟨a, c, p, a', c', p', h, h', hc, hp, hc', hp', ?_, ?_, ?_, ?_⟩ <;> linarith [e1.1, e1.2, e2.1, e2.2, e1'.1, e1'.2, e2'.1, e2'.2]

/-- **C135 (convexity).** At a mixture of two futures prices and of two strikes the prices are at most the same mixture of
the prices, up to the error of the coded normal distribution: butterfly spreads do not have negative prices. -/
theorem C135_convex {FT' K' w : ℝ} (hP : 0 ≤ Pt) (hFT : 0 < FT) (hFT' : 0 < FT') (hK : 0 < K) (hK' : 0 < K') (hw : 0 ≤ w)
    (hw1 : w ≤ 1) (hE : κE ≠ 0) (hF : κF ≠ 0) (hEF : κE + κF ≠ 0)
    (hv : 0 < MS.variance σS σE σF ρSE ρSF ρEF κE κF t T) {g ε : ℝ}
    (hg : g = exp (-MS.covariance σS σE σF ρSE ρSF ρEF κE κF t T))
    (hε : ε = 1.5e-7 * Pt * ((1 - w) * (FT * g + K) + w * (FT' * g + K'))) :
    ∃ a c p a' c' p' a'' c'' p'', msCls.construct (msKw Pt FT K t T σS σE σF ρSE ρSF ρEF κE κF) = (a, none) ∧
      msCls.construct (msKw Pt FT' K' t T σS σE σF ρSE ρSF ρEF κE κF) = (a', none) ∧
      msCls.construct (msKw Pt ((1 - w) * FT + w * FT') ((1 - w) * K + w * K') t T σS σE σF ρSE ρSF ρEF κE κF) = (a'', none) ∧
      MSClass.call.run a = .ok (.num c) ∧ MSClass.put.run a = .ok (.num p) ∧
      MSClass.call.run a' = .ok (.num c') ∧ MSClass.put.run a' = .ok (.num p') ∧
      MSClass.call.run a'' = .ok (.num c'') ∧ MSClass.put.run a'' = .ok (.num p'') ∧
      c'' ≤ (1 - w) * c + w * c' + ε ∧ p'' ≤ (1 - w) * p + w * p' + ε := by
  have hw' : 0 ≤ 1 - w := by linarith
  have mixpos : ∀ x y : ℝ, 0 < x → 0 < y → 0 < (1 - w) * x + w * y := by
    intro x y hx hy
    rcases hw.eq_or_lt with rfl | h
    · simpa using hx
    · have := mul_pos h hy
      have := mul_nonneg hw' hx.le
      linarith
  obtain ⟨a, c, p, h, hc, hp, e1, e2⟩ := ms_pair Pt FT K t T σS σE σF ρSE ρSF ρEF κE κF hP hFT hK hE hF hEF hv rfl rfl
  obtain ⟨a', c', p', h', hc', hp', e1', e2'⟩ := ms_pair Pt FT' K' t T σS σE σF ρSE ρSF ρEF κE κF hP hFT' hK'
    hE hF hEF hv rfl rfl
  obtain ⟨a'', c'', p'', h'', hc'', hp'', e1'', e2''⟩ := ms_pair Pt ((1 - w) * FT + w * FT') ((1 - w) * K + w * K') t T
    σS σE σF ρSE ρSF ρEF κE κF hP (mixpos _ _ hFT hFT') (mixpos _ _ hK hK') hE hF hEF hv rfl rfl
  rw [← hg] at e1 e2 e1' e2' e1'' e2''
  set v := √(MS.variance σS σE σF ρSE ρSF ρEF κE κF t T)
  have eF : ((1 - w) * FT + w * FT') * g = (1 - w) * (FT * g) + w * (FT' * g) := by ring
  rw [eF] at e1'' e2''
  have b := bsCall_convex 1 0 0 v (x := FT * g) (y := FT' * g) (K := K) (L := K') hw' hw
  generalize bsCall (FT * g) K 1 0 0 v = A at *
  generalize bsCall (FT' * g) K' 1 0 0 v = B at *
  generalize bsCall ((1 - w) * (FT * g) + w * (FT' * g)) ((1 - w) * K + w * K') 1 0 0 v = C at *
  generalize FT * g = x at *
  generalize FT' * g = y at *
  rw [abs_le] at e1 e2 e1' e2' e1'' e2''
  have m := mul_le_mul_of_nonneg_left b hP
  have n1 := mul_le_mul_of_nonneg_left e1.1 hw'
  have n2 := mul_le_mul_of_nonneg_left e1'.1 hw
  have n3 := mul_le_mul_of_nonneg_left e2.1 hw'
  have n4 := mul_le_mul_of_nonneg_left e2'.1 hw
  refine ⟨a, c, p, a', c', p', a'', c'', p'', h, h', h'', hc, hp, hc', hp', hc'', hp'', ?_, ?_⟩
  · rw [hε]; linear_combination e1''.2 + m + n1 + n2
  · rw [hε]; linear_combination e2''.2 + m + n3 + n4

/-- **C135 (bond price).** The prices are proportional to `Pt`. -/
theorem C135_bond (l : ℝ) (hK : K ≠ 0) (hE : κE ≠ 0) (hF : κF ≠ 0) (hEF : κE + κF ≠ 0) :
    ∃ a c p a' c' p', msCls.construct (msKw Pt FT K t T σS σE σF ρSE ρSF ρEF κE κF) = (a, none) ∧
      msCls.construct (msKw (l * Pt) FT K t T σS σE σF ρSE ρSF ρEF κE κF) = (a', none) ∧
      MSClass.call.run a = .ok (.num c) ∧ MSClass.put.run a = .ok (.num p) ∧
      MSClass.call.run a' = .ok (.num c') ∧ MSClass.put.run a' = .ok (.num p') ∧ c' = l * c ∧ p' = l * p := by
  obtain ⟨a, h, h1⟩ := ms_prices Pt FT K t T σS σE σF ρSE ρSF ρEF κE κF hK hE hF hEF
  obtain ⟨a', h', h1'⟩ := ms_prices (l * Pt) FT K t T σS σE σF ρSE ρSF ρEF κE κF hK hE hF hEF
  obtain ⟨hc, hp⟩ := h1 _ _ _ _ rfl rfl rfl rfl
  obtain ⟨hc', hp'⟩ := h1' _ _ _ _ rfl rfl rfl rfl
  exact ⟨a, _, _, a', _, _, h, h', hc, hp, hc', hp', by ring, by ring⟩

/-- **C135 (unit of the prices).** Multiplying futures price and strike by `l` multiplies both prices by `l`. -/
theorem C135_homogeneous {l : ℝ} (hl : l ≠ 0) (hK : K ≠ 0) (hE : κE ≠ 0) (hF : κF ≠ 0) (hEF : κE + κF ≠ 0) :
    ∃ a c p a' c' p', msCls.construct (msKw Pt FT K t T σS σE σF ρSE ρSF ρEF κE κF) = (a, none) ∧
      msCls.construct (msKw Pt (l * FT) (l * K) t T σS σE σF ρSE ρSF ρEF κE κF) = (a', none) ∧
      MSClass.call.run a = .ok (.num c) ∧ MSClass.put.run a = .ok (.num p) ∧
      MSClass.call.run a' = .ok (.num c') ∧ MSClass.put.run a' = .ok (.num p') ∧ c' = l * c ∧ p' = l * p := by
  obtain ⟨a, h, h1⟩ := ms_prices Pt FT K t T σS σE σF ρSE ρSF ρEF κE κF hK hE hF hEF
  obtain ⟨a', h', h1'⟩ := ms_prices Pt (l * FT) (l * K) t T σS σE σF ρSE ρSF ρEF κE κF (mul_ne_zero hl hK) hE hF hEF
  obtain ⟨hc, hp⟩ := h1 _ _ _ _ rfl rfl rfl rfl
  obtain ⟨hc', hp'⟩ := h1' _ _ _ _ rfl rfl rfl rfl
  refine ⟨a, _, _, a', _, _, h, h', hc, hp, hc', hp', ?_, ?_⟩ <;> rw [mul_div_mul_left _ _ hl] <;> ring

end

theorem loading_continuous (κ : ℝ) : Continuous fun s => MS.loading κ s :=
  intervalIntegral.continuous_primitive
    (fun a b => (by fun_prop : Continuous fun v : ℝ => exp (-κ * v)).intervalIntegrable a b) 0

theorem loading_nonneg (κ : ℝ) {s : ℝ} (hs : 0 ≤ s) : 0 ≤ MS.loading κ s :=
  intervalIntegral.integral_nonneg hs fun _ _ => (exp_pos _).le

theorem loading_mono (κ : ℝ) {s s' : ℝ} (h : s ≤ s') : MS.loading κ s ≤ MS.loading κ s' := by
  have hi : ∀ a b, IntervalIntegrable (fun v : ℝ => exp (-κ * v)) volume a b := fun a b =>
    (by fun_prop : Continuous fun v : ℝ => exp (-κ * v)).intervalIntegrable a b
  have := intervalIntegral.integral_interval_sub_left (hi 0 s') (hi 0 s)
  have h0 : 0 ≤ ∫ v in s..s', exp (-κ * v) := intervalIntegral.integral_nonneg h fun _ _ => (exp_pos _).le
  unfold MS.loading
  linarith

theorem ms_form_continuous (σS σE σF ρSE ρSF ρEF κE κF T : ℝ) :
    Continuous fun u => MS.corr ρSE ρSF ρEF (MS.futures σS σE σF κE κF T u) (MS.futures σS σE σF κE κF T u) := by
  have h1 : Continuous fun u => MS.loading κE (T - u) := (loading_continuous κE).comp (by fun_prop)
  have h2 : Continuous fun u => MS.loading κF (T - u) := (loading_continuous κF).comp (by fun_prop)
  simp only [MS.corr, MS.futures]
  fun_prop

/-- Prices with the same covariance and a smaller variance. -/
theorem ms_less_variance {Pt FT K t T σF ρSF ρEF κE κF σS σE ρSE σS' σE' ρSE' ε : ℝ} (hP : 0 ≤ Pt) (hFT : 0 < FT) (hK : 0 < K)
    (hE : κE ≠ 0) (hF : κF ≠ 0) (hEF : κE + κF ≠ 0) (hv : 0 < MS.variance σS σE σF ρSE ρSF ρEF κE κF t T)
    (hvv : MS.variance σS σE σF ρSE ρSF ρEF κE κF t T ≤ MS.variance σS' σE' σF ρSE' ρSF ρEF κE κF t T)
    (hcc : MS.covariance σS' σE' σF ρSE' ρSF ρEF κE κF t T = MS.covariance σS σE σF ρSE ρSF ρEF κE κF t T)
    (hε : ε = 1.5e-7 * Pt * (FT * exp (-MS.covariance σS σE σF ρSE ρSF ρEF κE κF t T) + K)) :
    ∃ a c p a' c' p', msCls.construct (msKw Pt FT K t T σS σE σF ρSE ρSF ρEF κE κF) = (a, none) ∧
      msCls.construct (msKw Pt FT K t T σS' σE' σF ρSE' ρSF ρEF κE κF) = (a', none) ∧
      MSClass.call.run a = .ok (.num c) ∧ MSClass.put.run a = .ok (.num p) ∧
      MSClass.call.run a' = .ok (.num c') ∧ MSClass.put.run a' = .ok (.num p') ∧ c ≤ c' + ε ∧ p ≤ p' + ε := by
  obtain ⟨a, c, p, h, hc, hp, e1, e2⟩ := ms_pair Pt FT K t T σS σE σF ρSE ρSF ρEF κE κF hP hFT hK hE hF hEF hv rfl rfl
  obtain ⟨a', c', p', h', hc', hp', e1', e2'⟩ := ms_pair Pt FT K t T σS' σE' σF ρSE' ρSF ρEF κE κF hP hFT hK
    hE hF hEF (hv.trans_le hvv) rfl rfl
  rw [hcc] at e1' e2'
  set F := FT * exp (-MS.covariance σS σE σF ρSE ρSF ρEF κE κF t T)
  have b := bsCall_vol (K := K) (t := 1) (r := 0) F zero_le_one (sqrt_nonneg _) (sqrt_le_sqrt hvv)
  rw [abs_le] at e1 e2 e1' e2'
  have m := mul_le_mul_of_nonneg_left b hP
  have m4 : ε = 7.5e-8 * Pt * (F + K) + 7.5e-8 * Pt * (F + K) := by rw [hε]; ring
  refine ⟨a, c, p, a', c', p', h, h', hc, hp, hc', hp', ?_, ?_⟩ <;> linarith [e1.1, e1.2, e2.1, e2.2, e1'.1, e1'.2, e2'.1, e2'.2]

/-- **C135 (correlation of spot and convenience yield).** A convenience yield that moves more closely with the spot price
dampens the futures price: neither price rises, up to the error of the coded normal distribution. -/
theorem C135_correlation (Pt FT K t T σS σE σF ρSE ρSE' ρSF ρEF κE κF : ℝ) (hP : 0 ≤ Pt) (hFT : 0 < FT) (hK : 0 < K)
    (hE : κE ≠ 0) (hF : κF ≠ 0) (hEF : κE + κF ≠ 0) (ht : 0 ≤ t) (hT : t ≤ T) (hS : 0 ≤ σS) (hσE : 0 ≤ σE) (hρ : ρSE ≤ ρSE')
    (hv : 0 < MS.variance σS σE σF ρSE' ρSF ρEF κE κF t T) {ε : ℝ}
    (hε : ε = 1.5e-7 * Pt * (FT * exp (-MS.covariance σS σE σF ρSE ρSF ρEF κE κF t T) + K)) :
    ∃ a c p a' c' p', msCls.construct (msKw Pt FT K t T σS σE σF ρSE ρSF ρEF κE κF) = (a, none) ∧
      msCls.construct (msKw Pt FT K t T σS σE σF ρSE' ρSF ρEF κE κF) = (a', none) ∧
      MSClass.call.run a = .ok (.num c) ∧ MSClass.put.run a = .ok (.num p) ∧
      MSClass.call.run a' = .ok (.num c') ∧ MSClass.put.run a' = .ok (.num p') ∧ c' ≤ c + ε ∧ p' ≤ p + ε := by
  have hcc : MS.covariance σS σE σF ρSE ρSF ρEF κE κF t T = MS.covariance σS σE σF ρSE' ρSF ρEF κE κF t T := by
    simp [MS.covariance, MS.corr, MS.bond]
  have hvv : MS.variance σS σE σF ρSE' ρSF ρEF κE κF t T ≤ MS.variance σS σE σF ρSE ρSF ρEF κE κF t T := by
    refine intervalIntegral.integral_mono_on ht ((ms_form_continuous ..).intervalIntegrable 0 t)
      ((ms_form_continuous ..).intervalIntegrable 0 t) fun u hu => ?_
    have hl := loading_nonneg κE (s := T - u) (by linarith [hu.2])
    have := mul_le_mul_of_nonneg_right hρ (mul_nonneg hS (mul_nonneg hσE hl))
    simp only [MS.corr, MS.futures]
    linarith
  obtain ⟨a, c, p, a', c', p', h, h', hc, hp, hc', hp', g1, g2⟩ := ms_less_variance (ε := ε) hP hFT hK hE hF hEF hv hvv hcc
    (by rw [hε, hcc])
  exact ⟨a', c', p', a, c, p, h', h, hc', hp', hc, hp, g1, g2⟩

/-- **C135 (spot volatility).** With a deterministic interest rate neither price falls when the spot
volatility rises, as long as the lower volatility covers the correlated part of the convenience yield over the life of the
future, `ρSE σE ∫₀ᵀ e^{-κE v} dv ≤ σS`. -/
theorem C135_volatility (Pt FT K t T σS σS' σE ρSE ρSF ρEF κE κF : ℝ) (hP : 0 ≤ Pt) (hFT : 0 < FT) (hK : 0 < K)
    (hE : κE ≠ 0) (hF : κF ≠ 0) (hEF : κE + κF ≠ 0) (ht : 0 ≤ t) (hT : t ≤ T) (hS : 0 ≤ σS) (hSS : σS ≤ σS')
    (hr : ρSE * σE * MS.loading κE T ≤ σS) (hv : 0 < MS.variance σS σE 0 ρSE ρSF ρEF κE κF t T) :
    ∃ a c p a' c' p', msCls.construct (msKw Pt FT K t T σS σE 0 ρSE ρSF ρEF κE κF) = (a, none) ∧
      msCls.construct (msKw Pt FT K t T σS' σE 0 ρSE ρSF ρEF κE κF) = (a', none) ∧
      MSClass.call.run a = .ok (.num c) ∧ MSClass.put.run a = .ok (.num p) ∧
      MSClass.call.run a' = .ok (.num c') ∧ MSClass.put.run a' = .ok (.num p') ∧
      c ≤ c' + 1.5e-7 * Pt * (FT + K) ∧ p ≤ p' + 1.5e-7 * Pt * (FT + K) := by
  have hc0 : ∀ x, MS.covariance x σE 0 ρSE ρSF ρEF κE κF t T = 0 := by
    intro x; simp [MS.covariance, MS.corr, MS.bond]
  have hvv : MS.variance σS σE 0 ρSE ρSF ρEF κE κF t T ≤ MS.variance σS' σE 0 ρSE ρSF ρEF κE κF t T := by
    refine intervalIntegral.integral_mono_on ht ((ms_form_continuous ..).intervalIntegrable 0 t)
      ((ms_form_continuous ..).intervalIntegrable 0 t) fun u hu => ?_
    have hl := loading_nonneg κE (s := T - u) (by linarith [hu.2])
    have hl' := loading_mono κE (s := T - u) (s' := T) (by linarith [hu.1])
    have hx : ρSE * σE * MS.loading κE (T - u) ≤ σS := by
      rcases le_total 0 (ρSE * σE) with h | h
      · exact (mul_le_mul_of_nonneg_left hl' h).trans hr
      · exact (mul_nonpos_of_nonpos_of_nonneg h hl).trans hS
    simp only [MS.corr, MS.futures]
    nlinarith
  obtain ⟨a, c, p, a', c', p', h, h', hc, hp, hc', hp', g1, g2⟩ := ms_less_variance hP hFT hK hE hF hEF hv hvv
    ((hc0 _).trans (hc0 _).symm) rfl
  refine ⟨a, c, p, a', c', p', h, h', hc, hp, hc', hp', ?_, ?_⟩
  · simpa [hc0] using g1
  · simpa [hc0] using g2

/-- The value at the money with total volatility one. -/
theorem bsCall_atm_one {K : ℝ} (hK : 0 < K) : 0.34 * K ≤ bsCall K K 1 0 0 1 := by
  rw [bsCall_eq hK hK one_pos one_pos]
  have hd : D1 K K 1 0 1 = 1 / 2 := by
    unfold D1 GBS.d1Expr
    rw [div_self hK.ne', log_one, sqrt_one]; norm_num
  rw [hd]
  have h3 : 0.34 ≤ φ 0.5 := by
    unfold φ
    have hs : √(2 * π) ≤ 2.51 := by
      rw [sqrt_le_left (by norm_num)]
      have := pi_lt_d4; norm_num at *; linarith
    have he := add_one_le_exp (-(0.5 : ℝ) ^ 2 / 2)
    rw [le_div_iff₀ (by positivity)]
    nlinarith
  have h : 0.34 * (1 / 2 - (-(1 / 2))) ≤ Φ (1 / 2) - Φ (-(1 / 2)) := by
    refine Convex.mul_sub_le_image_sub_of_le_deriv (convex_Icc (-(1 / 2 : ℝ)) (1 / 2))
      (fun y _ => (hasDerivAt_Φ y).continuousAt.continuousWithinAt)
      (fun y _ => (hasDerivAt_Φ y).differentiableAt.differentiableWithinAt) (fun y hy => ?_) _ (by norm_num) _ (by norm_num)
      (by norm_num)
    rw [(hasDerivAt_Φ y).deriv]
    have hy' := interior_subset hy
    exact h3.trans (φ_le_of_abs (abs_le.2 ⟨by linarith [hy'.1], by linarith [hy'.2]⟩))
  rw [sqrt_one, show (1 / 2 : ℝ) - 1 * 1 = -(1 / 2) by norm_num]
  simp only [sub_zero, zero_mul, neg_zero, exp_zero, mul_one]
  nlinarith

/-- **C135 (spot volatility), refuted in general.** With a convenience yield that moves with the spot price (correlation
one, volatility 4, reversion 1), deterministic rates and a future and option of maturity `log 2`, raising the spot
volatility from 0 to 1.12 lowers call and put at the money from more than a third to less than a fifth of `Pt FT`. -/
theorem C135_volatility_fails (Pt FT : ℝ) (hP : 0 < Pt) (hFT : 0 < FT) :
    ∃ a c p a' c' p', msCls.construct (msKw Pt FT FT (log 2) (log 2) 0 4 0 1 0 0 1 1) = (a, none) ∧
      msCls.construct (msKw Pt FT FT (log 2) (log 2) 1.12 4 0 1 0 0 1 1) = (a', none) ∧
      MSClass.call.run a = .ok (.num c) ∧ MSClass.put.run a = .ok (.num p) ∧
      MSClass.call.run a' = .ok (.num c') ∧ MSClass.put.run a' = .ok (.num p') ∧
      0.33 * (Pt * FT) < c ∧ 0.33 * (Pt * FT) < p ∧ c' < 0.2 * (Pt * FT) ∧ p' < 0.2 * (Pt * FT) := by
  have hL1 := log_two_gt_d9
  have hL2 := log_two_lt_d9
  have hc0 : ∀ x, MS.covariance x 4 0 1 0 0 1 1 (log 2) (log 2) = 0 := by
    intro x; simp [MS.covariance, MS.corr, MS.bond]
  have hvar : ∀ x, MS.variance x 4 0 1 0 0 1 1 (log 2) (log 2) = x ^ 2 * log 2 - 8 * x * (log 2 - 1 / 2) + (16 * log 2 - 10) := by
    intro x
    rw [variance_eq one_ne_zero one_ne_zero (by norm_num)]
    have e1 : exp (-1 * log 2) = 1 / 2 := by rw [neg_one_mul, exp_neg, exp_log two_pos]; norm_num
    have e2 : exp (1 * log 2) = 2 := by rw [one_mul, exp_log two_pos]
    have e3 : exp (-2 * 1 * log 2) = 1 / 4 := by
      rw [show -2 * 1 * log 2 = -1 * log 2 + -1 * log 2 by ring, exp_add, e1]; norm_num
    have e4 : exp (2 * 1 * log 2) = 4 := by
      rw [show 2 * 1 * log 2 = 1 * log 2 + 1 * log 2 by ring, exp_add, e2]; norm_num
    unfold vzNum
    rw [e1, e2, e3, e4]
    ring
  have hv : 1 ^ 2 ≤ MS.variance 0 4 0 1 0 0 1 1 (log 2) (log 2) := by rw [hvar]; norm_num at *; linarith
  have hv' : 0 < MS.variance 1.12 4 0 1 0 0 1 1 (log 2) (log 2) := by rw [hvar]; norm_num at *; linarith
  have hv'' : MS.variance 1.12 4 0 1 0 0 1 1 (log 2) (log 2) ≤ 0.48 ^ 2 := by rw [hvar]; norm_num at *; linarith
  obtain ⟨a, c, p, h, hc, hp, e1, e2⟩ := ms_pair Pt FT FT (log 2) (log 2) 0 4 0 1 0 0 1 1 hP.le hFT hFT one_ne_zero one_ne_zero
    (by norm_num) (by linarith) rfl rfl
  obtain ⟨a', c', p', h', hc', hp', e1', e2'⟩ := ms_pair Pt FT FT (log 2) (log 2) 1.12 4 0 1 0 0 1 1 hP.le hFT hFT one_ne_zero
    one_ne_zero (by norm_num) hv' rfl rfl
  rw [hc0, neg_zero, exp_zero, mul_one] at e1 e2 e1' e2'
  have b1 := (bsCall_atm_one hFT).trans (bsCall_vol (K := FT) (t := 1) (r := 0) FT zero_le_one zero_le_one (le_sqrt_of_sq_le hv))
  have b2 : bsCall FT FT 1 0 0 (√(MS.variance 1.12 4 0 1 0 0 1 1 (log 2) (log 2))) ≤ 0.192 * FT := by
    have h1 := bsCall_atm_le (r := 0) (b := 0) le_rfl le_rfl hFT one_pos (sqrt_pos.2 hv')
    have h2 := sqrt_le_iff.2 ⟨by norm_num, hv''⟩
    rw [max_self, zero_mul, zero_add, sqrt_one, mul_one] at h1
    nlinarith
  generalize bsCall FT FT 1 0 0 (√(MS.variance 0 4 0 1 0 0 1 1 (log 2) (log 2))) = A at *
  generalize bsCall FT FT 1 0 0 (√(MS.variance 1.12 4 0 1 0 0 1 1 (log 2) (log 2))) = B at *
  rw [abs_le] at e1 e2 e1' e2'
  have m1 := mul_le_mul_of_nonneg_left b1 hP.le
  have m2 := mul_le_mul_of_nonneg_left b2 hP.le
  have m3 := mul_pos hP hFT
  refine ⟨a, c, p, a', c', p', h, h', hc, hp, hc', hp', ?_, ?_, ?_, ?_⟩ <;>
    nlinarith [e1.1, e2.1, e1'.2, e2'.2]

/-- Example for C135: the docstring's contract with strikes 80 and 85 and a bond price of one. -/
theorem C135_example : ∃ a c p a' c' p',
    msCls.construct (msKw 1 95 80 (1 / 4) (1 / 2) 0.266 0.249 0.0096 0.805 0.0805 0.1243 1.045 0.2) = (a, none) ∧
    msCls.construct (msKw 1 95 85 (1 / 4) (1 / 2) 0.266 0.249 0.0096 0.805 0.0805 0.1243 1.045 0.2) = (a', none) ∧
    MSClass.call.run a = .ok (.num c) ∧ MSClass.put.run a = .ok (.num p) ∧
    MSClass.call.run a' = .ok (.num c') ∧ MSClass.put.run a' = .ok (.num p') ∧
    ∃ ε, ε = 1.5e-7 * 1 * (95 * exp (-MS.covariance 0.266 0.249 0.0096 0.805 0.0805 0.1243 1.045 0.2 (1 / 4) (1 / 2)) + 85) ∧
      c' ≤ c + ε ∧ c ≤ c' + 1 * (85 - 80) + ε := by
  have hv : 0 < MS.variance 0.266 0.249 0.0096 0.805 0.0805 0.1243 1.045 0.2 (1 / 4) (1 / 2) := by
    refine variance_pos (δ := 1 / 10) (by norm_num) (by norm_num) (by norm_num) ?_
    rintro ⟨x, y, z⟩
    simp only [MS.corr]
    nlinarith [sq_nonneg (0.9 * x + 0.805 / 0.9 * y + 0.0805 / 0.9 * z), sq_nonneg (y + 0.15 * z), sq_nonneg x, sq_nonneg y, sq_nonneg z]
  obtain ⟨a, c, p, a', c', p', h, h', hc, hp, hc', hp', g1, g2, -⟩ := C135_strike 1 95 80 (1 / 4) (1 / 2) 0.266 0.249 0.0096 0.805
    0.0805 0.1243 1.045 0.2 (K' := 85) (by norm_num) (by norm_num) (by norm_num) (by norm_num) (by norm_num) (by norm_num)
    (by norm_num) hv rfl
  exact ⟨a, c, p, a', c', p', h, h', hc, hp, hc', hp', _, rfl, g1, g2⟩

end Verif.Props
