import Verif.Model.HNObj
import Verif.Props.HNShape
import Verif.Props.ImpliedVol
import Verif.Lemmas.RGWValue

/-!
C89: which `HestonNandiOption` objects have a price, and the price at and after maturity.
-/
namespace Verif.Props
open Verif Verif.Spec Verif.HN Real MeasureTheory ProbabilityTheory Set

/-- **C89.** An option has a price exactly when the five parameters are given one by one, the stationary variance is
defined, and the maturity is an integer. -/
theorem C89_price_iff (quad : (ℝ → ℝ) → ℝ) (S K : ℝ) (t : Days) (r : ℝ) (lamb omega alpha beta gamma : Option ℝ)
    (model : Option HN.Par) :
    (∃ v, (Obj.new S K t r lamb omega alpha beta gamma model).call quad = .ok v) ↔
      ∃ l w a b g n, lamb = some l ∧ omega = some w ∧ alpha = some a ∧ beta = some b ∧ gamma = some g ∧ t = .int n ∧
        1 - b - a * (g + l + 1 / 2) ^ 2 ≠ 0 := by
  constructor
  · rintro ⟨v, hv⟩
    cases gamma <;> cases lamb <;> cases omega <;> cases alpha <;> cases beta <;>
      simp only [Obj.call, Obj.prepare, Obj.new, num, bind, Except.bind, reduceCtorEq] at hv
    rename_i g l w a b
    split at hv
    · cases hv
    · rename_i x hx
      split at hx
      · cases hx
      · rename_i hden
        cases t with
        | int n => exact ⟨l, w, a, b, g, n, rfl, rfl, rfl, rfl, rfl, rfl, hden⟩
        | float y => cases hx
  · rintro ⟨l, w, a, b, g, n, rfl, rfl, rfl, rfl, rfl, rfl, hden⟩
    refine ⟨HN.call quad ⟨l, w, a, b, g⟩ S K n r, ?_⟩
    simp only [Obj.call, Obj.prepare, Obj.new, num, bind, Except.bind, if_neg hden, pure, Except.pure]

/-- **C89.** Then all methods return the numbers of the formulas. -/
theorem C89_values_partial (quad : (ℝ → ℝ) → ℝ) (S K : ℝ) (n : ℤ) (r : ℝ) (p : HN.Par) (model : Option HN.Par)
    (isCall : Bool) (hden : 1 - p.beta - p.alpha * (p.gamma + p.lamb + 1 / 2) ^ 2 ≠ 0) :
    let o := Obj.new S K (.int n) r (some p.lamb) (some p.omega) (some p.alpha) (some p.beta) (some p.gamma) model
    o.call quad = .ok (HN.call quad p S K n r) ∧ o.put quad = .ok (HN.put quad p S K n r) ∧
    o.delta quad isCall = .ok (HN.delta quad isCall p S K n r) ∧ o.gammaGreek quad = .ok (HN.gamma quad p S K n r) := by
  have h : (Obj.new S K (.int n) r (some p.lamb) (some p.omega) (some p.alpha) (some p.beta) (some p.gamma)
      model).prepare = .ok (p, n) := by
    simp only [Obj.prepare, Obj.new, num, bind, Except.bind, if_neg hden, pure, Except.pure]
  simp only [Obj.call, Obj.put, Obj.delta, Obj.gammaGreek, h, bind, Except.bind, pure, Except.pure]
  exact ⟨rfl, rfl, rfl, rfl⟩

/-- **C89.** The documented type of the maturity, `float`, is refused: `TypeError` for every float, whole numbers of days
included, whatever the (stationary) parameters. -/
theorem C89_float_raises (quad : (ℝ → ℝ) → ℝ) (S K x r : ℝ) {p : HN.Par} (hp : ValidHN p) (model : Option HN.Par)
    (isCall : Bool) :
    let o := Obj.new S K (.float x) r (some p.lamb) (some p.omega) (some p.alpha) (some p.beta) (some p.gamma) model
    o.call quad = .error .typeError ∧ o.put quad = .error .typeError ∧ o.delta quad isCall = .error .typeError ∧
      o.gammaGreek quad = .error .typeError := by
  have hden : 1 - p.beta - p.alpha * (p.gamma + p.lamb + 1 / 2) ^ 2 ≠ 0 := by
    have := hp.stationary
    linarith
  have h : (Obj.new S K (.float x) r (some p.lamb) (some p.omega) (some p.alpha) (some p.beta) (some p.gamma)
      model).prepare = .error .typeError := by
    simp only [Obj.prepare, Obj.new, num, bind, Except.bind, if_neg hden]
    rfl
  simp only [Obj.call, Obj.put, Obj.delta, Obj.gammaGreek, h, bind, Except.bind]
  trivial

/-- **C89.** A fitted model passed as `model` is not used: without the five separate parameters every method raises. -/
theorem C89_model_unused (quad : (ℝ → ℝ) → ℝ) (S K : ℝ) (t : Days) (r : ℝ) (p : HN.Par) (isCall : Bool) :
    let o := Obj.new S K t r none none none none none (some p)
    o.call quad = .error .typeError ∧ o.put quad = .error .typeError ∧ o.delta quad isCall = .error .typeError ∧
      o.gammaGreek quad = .error .typeError :=
  ⟨rfl, rfl, rfl, rfl⟩

theorem coef_nonpos (c : ℂ) (l ω α β γ r : ℝ) {n : ℤ} (hn : n ≤ 0) :
    HN.coef c l ω α β γ r n = HN.coef c l ω α β γ r (1 : ℕ) := by
  simp only [HN.coef]
  rw [show (n - 1).toNat = 0 by omega]
  rfl

theorem fstarHN_nonpos (u s : ℝ) (p : HN.Par) (S K r : ℝ) {n : ℤ} (hn : n ≤ 0) :
    HN.fstarHN u s p S K n r = HN.fstarHN u s p S K (1 : ℕ) r := by
  simp only [HN.fstarHN, coef_nonpos _ _ _ _ _ _ _ hn]

/-- One day of the model is one day of Black–Scholes. -/
theorem one_day {p : HN.Par} (hp : ValidHN p) {S K : ℝ} (hS : 0 < S) (hK : 0 < K) (r : ℝ) :
    HN.call exactQuad p S K (1 : ℕ) r
      = bsCall S K 1 r r (√(hnVariance p.omega p.alpha p.beta (p.gamma + p.lamb + 1 / 2))) := by
  have hv := hp.omega.trans_le hp.le_variance
  rw [C63_call hp hS hK one_pos, hnValue, bsCall]
  simp only [if_true, Nat.cast_one]
  have e : ∀ z : Fin 1 → ℝ, S * rexp (hnRiskNeutral r p.lamb p.omega p.alpha p.beta p.gamma 1 z)
      = terminal S 1 r (√(hnVariance p.omega p.alpha p.beta (p.gamma + p.lamb + 1 / 2))) (z 0) := by
    intro z
    rw [hnRiskNeutral, hnReturn, hnReturn, terminal, sq_sqrt hv.le]
    simp only [sqrt_one]
    congr 2
    ring
  simp only [e]
  congr 1
  have hmp := measurePreserving_eval (fun _ : Fin 1 => gaussianReal 0 1) 0
  rw [← hmp.map_eq, integral_map hmp.measurable.aemeasurable]
  · rfl
  · unfold terminal
    fun_prop

/-- **C89.** At maturity (`t = 0`) the loop over the days is empty, as it is for one day: the exact price is not the
payoff but the undiscounted one-day Black–Scholes value less half a day's growth of the spot. With zero rate it
exceeds the payoff for every parameter set. -/
theorem C89_expired {p : HN.Par} (hp : ValidHN p) {S K : ℝ} (hS : 0 < S) (hK : 0 < K) (r : ℝ) :
    HN.call exactQuad p S K 0 r = rexp r
        * bsCall S K 1 r r (√(hnVariance p.omega p.alpha p.beta (p.gamma + p.lamb + 1 / 2))) - S * (rexp r - 1) / 2 ∧
    (r = 0 → max (S - K) 0 < HN.call exactQuad p S K 0 r) := by
  have hv := hp.omega.trans_le hp.le_variance
  have key : HN.call exactQuad p S K 0 r = rexp r
      * bsCall S K 1 r r (√(hnVariance p.omega p.alpha p.beta (p.gamma + p.lamb + 1 / 2))) - S * (rexp r - 1) / 2 := by
    rw [← one_day hp hS hK]
    simp only [HN.call, fstarHN_nonpos _ _ _ _ _ _ (le_refl (0 : ℤ)), Nat.cast_one, Int.cast_zero, Int.cast_one,
      mul_zero, Real.exp_zero, mul_one, one_mul]
    have he : rexp r * rexp (-r) = 1 := by rw [← Real.exp_add]; simp
    generalize exactQuad (fun phi => HN.fstarHN phi 1 p S K 1 r) = A at *
    generalize exactQuad (fun phi => HN.fstarHN phi 0 p S K 1 r) = B at *
    linear_combination (-A + K * (1 / 2 + B)) * he
  refine ⟨key, ?_⟩
  rintro rfl
  rw [key, Real.exp_zero, one_mul, sub_self, mul_zero, zero_div, sub_zero]
  have hσ := sqrt_pos.2 hv
  generalize √(hnVariance p.omega p.alpha p.beta (p.gamma + p.lamb + 1 / 2)) = σ at *
  have h1 : bsCall S K 1 0 0 (σ / 2) < bsCall S K 1 0 0 σ :=
    bsCall_strictMono hS hK one_pos 0 0 (half_pos hσ) hσ (by linarith)
  have h2 := bsCall_ge (S := S) (K := K) (r := 0) (b := 0) (σ := σ / 2) zero_le_one
  have h3 := bsCall_nonneg S K 1 0 0 (σ / 2)
  simp only [sub_self, neg_zero, Real.exp_zero, mul_one] at h2
  exact (max_le h2 h3).trans_lt h1

/-- Nonvacuous: valid parameters, an integer maturity. -/
theorem C89_example : ∃ v, (Obj.new 100 100 (.int 90) 0 (some 4) (some 8e-5) (some 6e-5) (some 0.7) (some 10) none).call
    exactQuad = .ok v :=
  (C89_price_iff _ _ _ _ _ _ _ _ _ _ _).2 ⟨4, 8e-5, 6e-5, 0.7, 10, 90, rfl, rfl, rfl, rfl, rfl, rfl, by norm_num⟩

end Verif.Props
