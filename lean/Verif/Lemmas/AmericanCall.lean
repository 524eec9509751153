import Verif.Lemmas.AmericanBlocks
import Verif.Lemmas.Margrabe
import Verif.Lemmas.RGWValue

/-!
American calls from American puts by symmetry, calls that are never exercised early, and trinomial lattices.
-/
namespace Verif
open Real MeasureTheory ProbabilityTheory Spec Set _root_.Verif.Tree

theorem integral_gauss_neg (g : ℝ → ℝ) : ∫ z, g (-z) ∂gaussianReal 0 1 = ∫ z, g z ∂gaussianReal 0 1 := by
  have h : MeasurePreserving (fun z : ℝ => -z) (gaussianReal 0 1) (gaussianReal 0 1) :=
    ⟨measurable_neg, by simpa using gaussianReal_map_neg (μ := 0) (v := 1)⟩
  exact h.integral_comp (MeasurableEquiv.neg ℝ).measurableEmbedding g

/-- A Bermudan call is a Bermudan put with spot and strike, and `r` and `r - b`, exchanged. -/
theorem bermudan_call {K Δ r b σ : ℝ} (hK : 0 < K) (hΔ : 0 ≤ Δ) (j : ℕ) {S : ℝ} (hS : 0 < S) :
    bermudan true K Δ r b σ j S = S * dp (opBS (r - b) (-b) σ Δ) (every 1) j (log (K / S)) := by
  have hg : ∀ S, 0 < S → exercise true S K = S * putG1 (log (K / S)) := fun S hS => by
    unfold exercise putG1
    rw [exp_log (div_pos hK hS), mul_max_of_nonneg _ _ hS.le]
    simp only [if_true, mul_zero]
    congr 1; field_simp
  induction j generalizing S with
  | zero => exact hg S hS
  | succ j ih =>
    rw [bermudan, dp, if_pos (show every 1 (j + 1) from one_dvd _), mul_max_of_nonneg _ _ hS.le, hg S hS]
    congr 1
    set F := dp (opBS (r - b) (-b) σ Δ) (every 1) j with hF
    have e1 : ∀ z, bermudan true K Δ r b σ j (Spec.terminal S Δ b σ z)
        = S * exp ((b - σ ^ 2 / 2) * Δ) * (exp (σ * √Δ * z)
          * F (log (K / S) - (b - σ ^ 2 / 2) * Δ - σ * √Δ * z)) := fun z => by
      have ht : 0 < Spec.terminal S Δ b σ z := mul_pos hS (exp_pos _)
      rw [ih ht]
      have : log (K / Spec.terminal S Δ b σ z) = log (K / S) - (b - σ ^ 2 / 2) * Δ - σ * √Δ * z := by
        unfold Spec.terminal
        rw [← div_div, log_div (div_pos hK hS).ne' (exp_pos _).ne', log_exp]; ring
      rw [this]
      unfold Spec.terminal
      rw [exp_add]; ring
    simp only [e1]
    rw [integral_const_mul, gauss_tilt (σ * √Δ) (fun z => F (log (K / S) - (b - σ ^ 2 / 2) * Δ - σ * √Δ * z)),
      ← integral_gauss_neg]
    unfold opBS opG
    have e2 : ∀ z, log (K / S) - (b - σ ^ 2 / 2) * Δ - σ * √Δ * (-z + σ * √Δ)
        = log (K / S) + (-b - σ ^ 2 / 2) * Δ + σ * √Δ * z := fun z => by
      have : √Δ * √Δ = Δ := mul_self_sqrt hΔ
      linear_combination (-σ ^ 2) * this
    simp only [e2]
    have e3 : exp (-r * Δ) * exp ((b - σ ^ 2 / 2) * Δ) * exp ((σ * √Δ) ^ 2 / 2) = exp (-(r - b) * Δ) := by
      rw [mul_pow, sq_sqrt hΔ, ← exp_add, ← exp_add]; congr 1; ring
    rw [← e3]; ring

/-- Symmetry of American values. -/
theorem american_symmetry {S K t r b σ : ℝ} (hS : 0 < S) (hK : 0 < K) (ht : 0 ≤ t) :
    american true S K t r b σ = american false K S t (r - b) (-b) σ := by
  unfold american
  congr 1; ext n
  rw [bermudan_call hK (by positivity) _ hS, bermudan_put hS _ hK]

theorem bsCall_carry (S K t r b σ : ℝ) : bsCall S K t r b σ = exp ((b - r) * t) * bsCall S K t b b σ := by
  unfold bsCall
  rw [← mul_assoc, ← exp_add]; congr 2; ring

/-- A call with `0 ≤ r ≤ b` is not worth exercising early. -/
theorem bermudan_call_eq {K Δ r b σ : ℝ} (hK : 0 ≤ K) (hΔ : 0 ≤ Δ) (hr : 0 ≤ r) (hb : r ≤ b) (j : ℕ) {S : ℝ}
    (hS : 0 ≤ S) : bermudan true K Δ r b σ j S = bsCall S K (j * Δ) r b σ := by
  induction j generalizing S with
  | zero => simp [bermudan, exercise, bsCall, Spec.terminal]
  | succ j ih =>
    have hpos : ∀ z, 0 ≤ Spec.terminal S Δ b σ z := fun z => mul_nonneg hS (exp_pos _).le
    have hj : 0 ≤ (j : ℝ) * Δ := by positivity
    have e : exp (-r * Δ) * ∫ z, bermudan true K Δ r b σ j (Spec.terminal S Δ b σ z) ∂gaussianReal 0 1
        = bsCall S K ((j + 1 : ℕ) * Δ) r b σ := by
      have hsub : ((j + 1 : ℕ) : ℝ) * Δ - Δ = j * Δ := by push_cast; ring
      have ht := bsCall_tower (x := S) (K := K) (t := (j + 1 : ℕ) * Δ) (td := Δ) (r := b) (σ := σ) hΔ
        (by push_cast; nlinarith)
      rw [hsub] at ht
      simp only [fun z => ih (hpos z), fun z => bsCall_carry (Spec.terminal S Δ b σ z) K (j * Δ) r b σ]
      rw [integral_const_mul, bsCall_carry, ← ht]
      generalize (∫ z, bsCall (Spec.terminal S Δ b σ z) K (j * Δ) b b σ ∂gaussianReal 0 1) = I
      rw [← mul_assoc (exp _) (exp _) I, ← mul_assoc (exp _) (exp _) I, ← exp_add, ← exp_add]
      congr 2; push_cast; ring
    rw [bermudan, e, max_eq_right]
    have hT : 0 ≤ ((j + 1 : ℕ) : ℝ) * Δ := by positivity
    unfold exercise
    rw [if_pos rfl]
    refine max_le (le_trans ?_ (bsCall_ge hT)) (bsCall_nonneg _ _ _ _ _ _)
    have h1 : 1 ≤ exp ((b - r) * ((j + 1 : ℕ) * Δ)) := one_le_exp (mul_nonneg (by linarith) hT)
    have h2 : exp (-r * ((j + 1 : ℕ) * Δ)) ≤ 1 := exp_le_one_iff.2 (by nlinarith)
    nlinarith [mul_le_mul_of_nonneg_left h1 hS, mul_le_mul_of_nonneg_left h2 hK]

theorem american_call_european {S K t r b σ : ℝ} (hS : 0 ≤ S) (hK : 0 ≤ K) (ht : 0 ≤ t) (hr : 0 ≤ r) (hb : r ≤ b) :
    american true S K t r b σ = bsCall S K t r b σ := by
  unfold american
  have e : ∀ n : ℕ, bermudan true K (t / (n + 1 : ℕ)) r b σ (n + 1) S = bsCall S K t r b σ := fun n => by
    rw [bermudan_call_eq hK (by positivity) hr hb _ hS]
    congr 1
    have : ((n + 1 : ℕ) : ℝ) ≠ 0 := by exact_mod_cast Nat.succ_ne_zero n
    field_simp
  simp only [e, ciSup_const]

/-- The American put is worth at least the European one and at least immediate exercise, and at most the strike. -/
theorem american_put_bounds {S K t r b σ : ℝ} (hS : 0 < S) (hK : 0 < K) (ht : 0 ≤ t) (hr : 0 ≤ r) :
    bsPut S K t r b σ ≤ american false S K t r b σ ∧ exercise false S K ≤ american false S K t r b σ ∧
      american false S K t r b σ ≤ K := by
  have hle : bermudan false K t r b σ 1 S ≤ american false S K t r b σ := by
    have := (american_bounds (b := b) (σ := σ) hS hK ht hr one_pos).1
    rw [bermudan_put hK 1 hS]
    unfold berm at this
    simpa using this
  simp only [bermudan] at hle
  refine ⟨le_trans (le_of_eq ?_) ((le_max_right _ _).trans hle), (le_max_left _ _).trans hle, ?_⟩
  · simp [bsPut, exercise]
  · have e : ∀ n : ℕ, bermudan false K (t / (n + 1 : ℕ)) r b σ (n + 1) S = K * berm r b σ t (n + 1) (log (S / K)) :=
      fun n => bermudan_put hK _ hS
    unfold american
    simp only [e]
    exact ciSup_le fun n => mul_le_of_le_one_right hK.le ((berm_nice hr ht _).le_one _)

/-- Log of a trinomial node. -/
theorem node3_exp (S x : ℝ) (j i : ℕ) :
    node3 S (exp x ^ 2) ((exp x)⁻¹ ^ 2) j i = S * exp (2 * x * (i - j)) := by
  unfold node3
  rw [← exp_neg, ← exp_nat_mul, ← exp_nat_mul, ← exp_nat_mul, ← exp_nat_mul, mul_assoc, ← exp_add]
  congr 2
  rcases le_total i j with h | h
  · rw [Nat.sub_eq_zero_of_le h, Nat.cast_sub h]; push_cast; ring
  · rw [Nat.sub_eq_zero_of_le h, Nat.cast_sub h]; push_cast; ring

/-- An American trinomial lattice exercises at every other step of the binomial one. -/
theorem lattice3_dp {S K x q D : ℝ} {n : ℕ} {V : ℕ → ℕ → ℝ}
    (hV : IsAmerican3 false S K (exp x ^ 2) ((exp x)⁻¹ ^ 2) (q ^ 2) (2 * q * (1 - q)) ((1 - q) ^ 2) (D ^ 2) n V)
    (hS : 0 < S) (hK : 0 < K) (hp0 : 0 ≤ q) (hp1 : q ≤ 1) (hD : 0 ≤ D) (hD1 : D ≤ 1) :
    ∀ j ≤ n, ∀ i ≤ 2 * j, V j i = K * dp (opL D q x (-x)) (every 2) ((n - j) * 2)
      (log (S / K) + 2 * x * (i - j)) := by
  have hop := stepOp_L (x := x) (x' := -x) hD hD1 hp0 hp1 le_rfl
  have hpay : ∀ j i : ℕ, K * putG1 (log (S / K) + 2 * x * (i - j))
      = max (K - node3 S (exp x ^ 2) ((exp x)⁻¹ ^ 2) j i) 0 := fun j i => by
    unfold putG1
    rw [node3_exp, exp_add, exp_log (div_pos hS hK), mul_max_of_nonneg _ _ hK.le, mul_zero, mul_sub, mul_one]
    congr 2; field_simp
  refine level_induction (fun i hi => ?_) (fun j hj ih i hi => ?_)
  · rw [hV.terminal i hi, Nat.sub_self, zero_mul, dp, hpay]
    simp [payoff]
  · rw [hV.back j hj i hi]
    obtain ⟨m, hm⟩ : ∃ m, n - j = m + 1 := ⟨n - j - 1, by omega⟩
    have hm' : n - (j + 1) = m := by omega
    rw [ih (i + 2) (by omega), ih (i + 1) (by omega), ih i (by omega), hm, hm', dp_block _ two_pos,
      mul_max_of_nonneg _ _ hK.le, hpay]
    set F := dp (opL D q x (-x)) (every 2) (m * 2)
    set y := log (S / K) + 2 * x * (i - j) with hy
    have hc : D ^ 2 * (q ^ 2 * (K * F (log (S / K) + 2 * x * ((i + 2 : ℕ) - (j + 1 : ℕ))))
        + 2 * q * (1 - q) * (K * F (log (S / K) + 2 * x * ((i + 1 : ℕ) - (j + 1 : ℕ))))
        + (1 - q) ^ 2 * (K * F (log (S / K) + 2 * x * (i - (j + 1 : ℕ)))))
        = K * (opL D q x (-x))^[2] F y := by
      simp only [Function.iterate_succ, Function.iterate_zero, Function.comp, id, opL]
      rw [show log (S / K) + 2 * x * ((i + 2 : ℕ) - (j + 1 : ℕ)) = y + x + x by rw [hy]; push_cast; ring,
        show log (S / K) + 2 * x * ((i + 1 : ℕ) - (j + 1 : ℕ)) = y by rw [hy]; push_cast; ring,
        show log (S / K) + 2 * x * (i - (j + 1 : ℕ)) = y + -x + -x by rw [hy]; push_cast; ring,
        show y + x + -x = y by ring, show y + -x + x = y by ring]
      ring
    rw [hc]
    have h0 : 0 ≤ K * (opL D q x (-x))^[2] F y :=
      mul_nonneg hK.le ((hop.iter_nice (hop.dp_nice _ _) 2).nonneg _)
    simp only [intrinsic, Bool.false_eq_true, if_false]
    rw [max_assoc, max_eq_right h0]

theorem waiting_mono {r b Δ Δ' : ℝ} (hr : 0 ≤ r) (h : Δ ≤ Δ') : waiting r b Δ ≤ waiting r b Δ' := by
  have h1 : exp (max (b - r) 0 * Δ) ≤ exp (max (b - r) 0 * Δ') :=
    exp_le_exp.2 (mul_le_mul_of_nonneg_left h (le_max_right _ _))
  have h2 : exp (-r * Δ') ≤ exp (-r * Δ) := exp_le_exp.2 (by nlinarith)
  unfold waiting; linarith

/-- Choosing how many steps to group: a rate `n^{-1/4}`. -/
theorem fourth_root_rate {X A K t r b σ C : ℝ} (hK : 0 ≤ K) (ht : 0 ≤ t) (hr : 0 ≤ r) (hσ : 0 ≤ σ) (hC : 0 ≤ C) {n : ℕ} (hn : 0 < n)
    (H : ∀ k : ℕ, 0 < k → k ≤ n →
      |X - A| ≤ K * (((n / k : ℕ) + 1) * (σ * √(t / n) * C) + waiting r b (k * (t / n)) + waiting r b (t / n))) :
    |X - A| ≤ K * (2 * C * (σ * √t) / n ^ (1 / 4 : ℝ) + 2 * waiting r b (2 * t / n ^ (1 / 4 : ℝ))) := by
  have hn' : (0 : ℝ) < n := by exact_mod_cast hn
  have hn1 : (1 : ℝ) ≤ n := by exact_mod_cast hn
  set ρ := (n : ℝ) ^ (1 / 4 : ℝ) with hρ
  have hρ1 : 1 ≤ ρ := one_le_rpow hn1 (by norm_num)
  have hρ0 : 0 < ρ := by linarith
  have hρ4 : ρ ^ 4 = n := by
    rw [hρ, ← rpow_natCast, ← rpow_mul hn'.le]; norm_num
  have hρ3 : 1 ≤ ρ ^ 3 := one_le_pow₀ hρ1
  have hk0 : 0 < ⌈ρ ^ 3⌉₊ := Nat.ceil_pos.2 (by positivity)
  have hkn : ⌈ρ ^ 3⌉₊ ≤ n := by
    rw [Nat.ceil_le, ← hρ4]
    nlinarith [mul_le_mul_of_nonneg_left hρ1 (show 0 ≤ ρ ^ 3 by positivity)]
  have hge : ρ ^ 3 ≤ ⌈ρ ^ 3⌉₊ := Nat.le_ceil _
  have hlt : (⌈ρ ^ 3⌉₊ : ℝ) < ρ ^ 3 + 1 := Nat.ceil_lt_add_one (by positivity)
  refine (H _ hk0 hkn).trans (mul_le_mul_of_nonneg_left ?_ hK)
  generalize ⌈ρ ^ 3⌉₊ = k at *
  have hk' : (0 : ℝ) < k := by exact_mod_cast hk0
  have hdiv : ((n / k : ℕ) : ℝ) ≤ ρ := by
    refine Nat.cast_div_le.trans ?_
    rw [div_le_iff₀ hk', ← hρ4]
    nlinarith [mul_le_mul_of_nonneg_left hge hρ0.le]
  have hsq : √(t / n) = √t / ρ ^ 2 := by
    rw [sqrt_div ht, ← hρ4, show ρ ^ 4 = (ρ ^ 2) ^ 2 by ring, sqrt_sq (by positivity)]
  have w1 : waiting r b (k * (t / n)) ≤ waiting r b (2 * t / ρ) := by
    refine waiting_mono hr ?_
    rw [mul_div_assoc', div_le_div_iff₀ hn' hρ0, ← hρ4]
    have : k * ρ ≤ 2 * ρ ^ 4 := by nlinarith [mul_le_mul_of_nonneg_right (show (k : ℝ) ≤ 2 * ρ ^ 3 by linarith) hρ0.le]
    nlinarith [mul_le_mul_of_nonneg_left this ht]
  have w2 : waiting r b (t / n) ≤ waiting r b (2 * t / ρ) := by
    refine waiting_mono hr ?_
    rw [div_le_div_iff₀ hn' hρ0, ← hρ4]
    have : ρ ≤ 2 * ρ ^ 4 := by nlinarith [mul_le_mul_of_nonneg_left hρ3 hρ0.le]
    nlinarith [mul_le_mul_of_nonneg_left this ht]
  have hc0 : 0 ≤ σ * √(t / n) * C := by positivity
  have w3 : (((n / k : ℕ) : ℝ) + 1) * (σ * √(t / n) * C) ≤ 2 * C * (σ * √t) / ρ := by
    calc _ ≤ (2 * ρ) * (σ * √(t / n) * C) := mul_le_mul_of_nonneg_right (by linarith) hc0
      _ = _ := by rw [hsq]; field_simp
  linarith

end Verif
