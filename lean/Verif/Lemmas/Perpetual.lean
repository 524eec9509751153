import Verif.Lemmas.BarrierAmerican
import Verif.Lemmas.TianRate
import Verif.Spec.Perpetual

/-!
The American value lies below the perpetual one and, by exercising at the perpetual level, close to it for long maturities.
-/
namespace Verif
open Real MeasureTheory ProbabilityTheory Spec Filter Topology Set

variable {r b σ γ K Δ S : ℝ}

theorem Spec.Stationary.powRate (h : Stationary r b σ γ) : powRate r b σ γ = 0 := by
  unfold Stationary at h; unfold Verif.powRate; linear_combination h

/-- `γ` for the put is one minus the exponent of the dual call. -/
theorem stationary_dual {β : ℝ} : Stationary (r - b) (-b) σ β ↔ Stationary r b σ (1 - β) := by
  unfold Stationary
  constructor <;> intro h <;> linear_combination h

theorem power_martingale (h : Stationary r b σ γ) (hΔ : 0 ≤ Δ) (hS : 0 < S) :
    Integrable (fun z => Spec.terminal S Δ b σ z ^ γ) (gaussianReal 0 1) ∧
      exp (-r * Δ) * ∫ z, Spec.terminal S Δ b σ z ^ γ ∂gaussianReal 0 1 = S ^ γ := by
  have h2 : (σ * √Δ) ^ 2 = σ ^ 2 * Δ := by rw [mul_pow, sq_sqrt hΔ]
  have e : (fun z => Spec.terminal S Δ b σ z ^ γ)
      = fun z => S ^ γ * exp (γ * b * Δ) * exp (γ * (σ * √Δ * z - (σ * √Δ) ^ 2 / 2)) := by
    funext z
    unfold Spec.terminal
    rw [mul_rpow hS.le (exp_pos _).le, ← exp_mul, mul_assoc (S ^ γ), ← exp_add, h2]
    congr 2; ring
  rw [e]
  refine ⟨(gauss_exp_int γ (σ * √Δ)).const_mul _, ?_⟩
  rw [integral_const_mul, gauss_exp, h2, mul_left_comm, mul_assoc, mul_assoc]
  conv_rhs => rw [← mul_one (S ^ γ)]
  congr 1
  rw [mul_left_comm, ← exp_add, ← exp_add, exp_eq_one_iff]
  unfold Stationary at h
  linear_combination Δ * h

/-- The tangent of the power at the perpetual level. -/
theorem exercise_le_power (hγ : γ < 0) (hK : 0 < K) (hS : 0 < S) :
    exercise false S K ≤ (K - perpetualLevel γ K) * (S / perpetualLevel γ K) ^ γ := by
  have hL : 0 < perpetualLevel γ K := mul_pos (div_pos_of_neg_of_neg hγ (by linarith)) hK
  set L := perpetualLevel γ K with hLd
  have hKL : (K - L) * γ = -L := by
    rw [hLd, perpetualLevel]; field_simp [show γ - 1 ≠ 0 by linarith]; ring
  have hKL0 : 0 < K - L := by nlinarith
  have hx : 0 < S / L := by positivity
  unfold exercise
  simp only [Bool.false_eq_true, if_false]
  refine max_le ?_ (by positivity)
  have h1 : 1 + γ * (S / L - 1) ≤ (S / L) ^ γ := by
    rw [rpow_def_of_pos hx]
    have h2 := add_one_le_exp (log (S / L) * γ)
    have h3 := log_le_sub_one_of_pos hx
    nlinarith
  have h4 := mul_le_mul_of_nonneg_left h1 hKL0.le
  have h5 : (K - L) * (1 + γ * (S / L - 1)) = K - S := by
    have : L * (S / L) = S := mul_div_cancel₀ _ hL.ne'
    linear_combination (S / L - 1) * hKL - this
  linarith

theorem bermudan_put_integrable (hK : 0 < K) (hΔ : 0 ≤ Δ) (hr : 0 ≤ r) (j : ℕ) (hS : 0 < S) :
    Integrable (fun z => bermudan false K Δ r b σ j (Spec.terminal S Δ b σ z)) (gaussianReal 0 1) := by
  have e : (fun z => bermudan false K Δ r b σ j (Spec.terminal S Δ b σ z))
      = fun z => K * dp (opBS r b σ Δ) (every 1) j (log (Spec.terminal S Δ b σ z / K)) := by
    funext z
    exact bermudan_put hK j (mul_pos hS (exp_pos _))
  rw [e]
  have hN := (stepOp_BS (b := b) (σ := σ) hr hΔ).dp_nice (every 1) j
  refine Integrable.const_mul ?_ K
  refine Integrable.mono' (integrable_const (1 : ℝ)) ?_ (.of_forall fun z => ?_)
  · have : Measurable fun z => log (Spec.terminal S Δ b σ z / K) := by unfold Spec.terminal; fun_prop
    exact (hN.continuous.measurable.comp this).aestronglyMeasurable
  · rw [Real.norm_eq_abs, abs_of_nonneg (hN.nonneg _)]
    exact hN.le_one _

theorem bermudan_put_le_power (h : Stationary r b σ γ) (hγ : γ < 0) (hK : 0 < K) (hΔ : 0 ≤ Δ) (hr : 0 ≤ r) (j : ℕ)
    (hS : 0 < S) :
    bermudan false K Δ r b σ j S ≤ (K - perpetualLevel γ K) * (S / perpetualLevel γ K) ^ γ := by
  have hL : 0 < perpetualLevel γ K := mul_pos (div_pos_of_neg_of_neg hγ (by linarith)) hK
  induction j generalizing S with
  | zero => exact exercise_le_power hγ hK hS
  | succ j ih =>
    refine max_le (exercise_le_power hγ hK hS) ?_
    obtain ⟨hi, he⟩ := power_martingale h hΔ hS
    have hc : ∀ {s}, 0 < s → (K - perpetualLevel γ K) * (s / perpetualLevel γ K) ^ γ
        = (K - perpetualLevel γ K) / perpetualLevel γ K ^ γ * s ^ γ := fun hs => by
      rw [div_rpow hs.le hL.le]; ring
    rw [hc hS, ← he, mul_left_comm ((K - perpetualLevel γ K) / _), ← integral_const_mul ((K - perpetualLevel γ K) / _)]
    refine mul_le_mul_of_nonneg_left ?_ (exp_pos _).le
    refine integral_mono (bermudan_put_integrable hK hΔ hr j hS) (hi.const_mul _) fun z => ?_
    have ht : 0 < Spec.terminal S Δ b σ z := mul_pos hS (exp_pos _)
    have := ih ht
    rwa [hc ht] at this

theorem bermudan_put_convex (hK : 0 < K) (hΔ : 0 ≤ Δ) (hr : 0 ≤ r) (j : ℕ) {x y a c : ℝ} (hx : 0 < x) (hy : 0 < y)
    (ha : 0 ≤ a) (hc : 0 ≤ c) (hac : a + c = 1) :
    bermudan false K Δ r b σ j (a * x + c * y)
      ≤ a * bermudan false K Δ r b σ j x + c * bermudan false K Δ r b σ j y := by
  have hex : ∀ x y, exercise false (a * x + c * y) K ≤ a * exercise false x K + c * exercise false y K := fun x y => by
    unfold exercise
    simp only [Bool.false_eq_true, if_false]
    have h1 := mul_le_mul_of_nonneg_left (le_max_left (K - x) 0) ha
    have h2 := mul_le_mul_of_nonneg_left (le_max_left (K - y) 0) hc
    have h3 := mul_nonneg ha (le_max_right (K - x) 0)
    have h4 := mul_nonneg hc (le_max_right (K - y) 0)
    refine max_le ?_ (by linarith)
    have : K = a * K + c * K := by rw [← add_mul, hac, one_mul]
    nlinarith
  have hm : ∀ x y u v : ℝ, a * x + c * y ≤ a * max x u + c * max y v := fun x y u v =>
    add_le_add (mul_le_mul_of_nonneg_left (le_max_left _ _) ha) (mul_le_mul_of_nonneg_left (le_max_left _ _) hc)
  have hm' : ∀ x y u v : ℝ, a * u + c * v ≤ a * max x u + c * max y v := fun x y u v =>
    add_le_add (mul_le_mul_of_nonneg_left (le_max_right _ _) ha) (mul_le_mul_of_nonneg_left (le_max_right _ _) hc)
  have hpos : ∀ {x y : ℝ}, 0 < x → 0 < y → 0 < a * x + c * y := fun {x y} hx hy => by
    rcases ha.lt_or_eq with h | h
    · have := mul_pos h hx; have := mul_nonneg hc hy.le; linarith
    · rw [← h] at hac ⊢; rw [zero_mul, zero_add, show c = 1 by linarith, one_mul]; exact hy
  induction j generalizing x y with
  | zero => exact hex x y
  | succ j ih =>
    unfold bermudan
    refine max_le ((hex x y).trans (hm _ _ _ _)) (le_trans ?_ (hm' _ _ _ _))
    have i1 := bermudan_put_integrable (b := b) (σ := σ) hK hΔ hr j hx
    have i2 := bermudan_put_integrable (b := b) (σ := σ) hK hΔ hr j hy
    rw [mul_left_comm a, mul_left_comm c, ← mul_add, ← integral_const_mul a, ← integral_const_mul c,
      ← integral_add (i1.const_mul a) (i2.const_mul c)]
    refine mul_le_mul_of_nonneg_left ?_ (exp_pos _).le
    refine integral_mono (bermudan_put_integrable hK hΔ hr j (hpos hx hy)) ((i1.const_mul a).add (i2.const_mul c)) fun z => ?_
    have e : Spec.terminal (a * x + c * y) Δ b σ z = a * Spec.terminal x Δ b σ z + c * Spec.terminal y Δ b σ z := by
      unfold Spec.terminal; ring
    simp only [e]
    exact ih (mul_pos hx (exp_pos _)) (mul_pos hy (exp_pos _))

theorem bermudan_put_le_american {t : ℝ} (hS : 0 < S) (hK : 0 < K) (ht : 0 ≤ t) (hr : 0 ≤ r) (n : ℕ) :
    bermudan false K (t / (n + 1 : ℕ)) r b σ (n + 1) S ≤ american false S K t r b σ := by
  rw [bermudan_put hK _ hS]
  exact (american_bounds hS hK ht hr (Nat.succ_pos n)).1

theorem american_put_convex {t x y a c : ℝ} (hK : 0 < K) (ht : 0 ≤ t) (hr : 0 ≤ r) (hx : 0 < x) (hy : 0 < y)
    (ha : 0 ≤ a) (hc : 0 ≤ c) (hac : a + c = 1) :
    american false (a * x + c * y) K t r b σ ≤ a * american false x K t r b σ + c * american false y K t r b σ := by
  refine ciSup_le fun n => ?_
  refine (bermudan_put_convex hK (by positivity) hr _ hx hy ha hc hac).trans ?_
  exact add_le_add (mul_le_mul_of_nonneg_left (bermudan_put_le_american hx hK ht hr n) ha)
    (mul_le_mul_of_nonneg_left (bermudan_put_le_american hy hK ht hr n) hc)

/-- The American put is at most the perpetual put. -/
theorem american_put_le_perpetual {t : ℝ} (h : Stationary r b σ γ) (hγ : γ < 0) (hK : 0 < K) (ht : 0 ≤ t) (hr : 0 ≤ r)
    (hS : 0 < S) : american false S K t r b σ ≤ perpetualPut γ K S := by
  have hL : 0 < perpetualLevel γ K := mul_pos (div_pos_of_neg_of_neg hγ (by linarith)) hK
  have hup : ∀ s, 0 < s → american false s K t r b σ ≤ (K - perpetualLevel γ K) * (s / perpetualLevel γ K) ^ γ :=
    fun s hs => ciSup_le fun n => bermudan_put_le_power h hγ hK (by positivity) hr _ hs
  unfold perpetualPut
  split_ifs with hSL
  · -- convexity between a price near zero and the level
    set L := perpetualLevel γ K
    have hAL := hup L hL
    rw [div_self hL.ne', one_rpow, mul_one] at hAL
    have hlim : Tendsto (fun ε : ℝ => K - (S - ε) / (L - ε) * L) (𝓝[>] 0) (𝓝 (K - (S - 0) / (L - 0) * L)) := by
      have : ContinuousAt (fun ε : ℝ => K - (S - ε) / (L - ε) * L) 0 := by
        refine continuousAt_const.sub (ContinuousAt.mul (ContinuousAt.div (by fun_prop) (by fun_prop) ?_) continuousAt_const)
        rw [sub_zero]; exact hL.ne'
      exact this.tendsto.mono_left nhdsWithin_le_nhds
    rw [sub_zero, sub_zero, div_mul_cancel₀ _ hL.ne'] at hlim
    refine ge_of_tendsto hlim ?_
    filter_upwards [Ioo_mem_nhdsGT hS] with ε hε
    obtain ⟨h0, h1⟩ := hε
    have hd : 0 < L - ε := by linarith
    set c := (S - ε) / (L - ε) with hc
    have hc0 : 0 ≤ c := div_nonneg (by linarith) hd.le
    have hc1 : c ≤ 1 := (div_le_one hd).2 (by linarith)
    have hcd : c * (L - ε) = S - ε := div_mul_cancel₀ _ hd.ne'
    have key := american_put_convex (b := b) (σ := σ) (t := t) (a := 1 - c) (c := c) hK ht hr h0 hL (by linarith) hc0 (by ring)
    rw [show (1 - c) * ε + c * L = S by linear_combination hcd] at key
    have hb := (american_put_bounds (b := b) (σ := σ) h0 hK ht hr).2.2
    nlinarith [mul_le_mul_of_nonneg_left hb (sub_nonneg.2 hc1), mul_le_mul_of_nonneg_left hAL hc0]
  · exact hup S hS

/-- Exercising a call at the level `I` loses at most `e^{(b-r)T}` of the value of doing so without expiry. -/
theorem barrierCall_ge_power {β I : ℝ} (hβ : 1 ≤ β) (h : Stationary r b σ β) (hK : 0 < K) (hKI : K ≤ I) {V : ℝ → ℝ → ℝ}
    (hV : IsBarrierCall r b σ K I V) {T : ℝ} (hS : 0 < S) (hSI : S < I) (hT : 0 < T) :
    (I - K) * ((S / I) ^ β - S / I * exp ((b - r) * T)) ≤ V S T := by
  have hI : 0 < I := hK.trans_le hKI
  have hα : 0 ≤ (I - K) / I ^ β := div_nonneg (by linarith) (rpow_pos_of_pos hI _).le
  have hα1 : 0 ≤ (I - K) / I := div_nonneg (by linarith) hI.le
  have p1 : powRate r b σ 1 = b - r := by unfold powRate; ring
  have hpow : ∀ s, 0 < s → s ≤ I → (s / I) ^ β ≤ s / I := fun s hs hsI => by
    have := rpow_le_rpow_of_exponent_ge (div_pos hs hI) ((div_le_one hI).2 hsI) hβ
    rwa [rpow_one] at this
  have h := bs_max_principle (r := r) (b := b) (σ := σ) (I := I)
    (W := fun s t => ((I - K) / I ^ β * s ^ β + -((I - K) / I) * (exp (powRate r b σ 1 * t) * s ^ (1 : ℝ))) + -1 * V s t)
    (by
      refine ContinuousOn.add (ContinuousOn.add (continuousOn_const.mul ?_) ?_) (continuousOn_const.mul hV.continuous)
      · exact continuousOn_fst.rpow_const fun q hq => Or.inl (show (0:ℝ) < q.1 from hq.1.1).ne'
      · simp only [rpow_one]; fun_prop)
    (fun s t h1 h2 h3 => by
      have hp : SolvesBS r b σ (fun s _ => s ^ β) s t := by
        have := solves_pow r b σ β h1 t
        simpa [h.powRate] using this
      exact (SolvesBSLemmas.add (SolvesBSLemmas.add (SolvesBSLemmas.smul _ hp) (SolvesBSLemmas.smul _ (solves_pow r b σ 1 h1 t)))
        (SolvesBSLemmas.smul (-1) (hV.equation s t h1 h2 h3))).sub)
    (fun s t h1 h2 h3 h4 ε hε => by
      have hc : ContinuousAt (fun q : ℝ × ℝ => (I - K) / I ^ β * q.1 ^ β
          + -((I - K) / I) * (exp (powRate r b σ 1 * q.2) * q.1 ^ (1 : ℝ))) (s, t) := by
        refine ContinuousAt.add (continuousAt_const.mul ?_) ?_
        · exact continuousAt_fst.rpow_const (Or.inl h1.ne')
        · simp only [rpow_one]; fun_prop
      have := (hc.tendsto.mono_left (nhdsWithin_le_nhds (s := Ioo (0:ℝ) I ×ˢ Ioi (0:ℝ)))).add
        ((hV.boundary s t h1 h2 h3 h4).const_mul (-1))
      refine this.eventually (gt_mem_nhds (lt_of_le_of_lt ?_ hε))
      simp only [rpow_one]
      have e1 : (I - K) / I ^ β * s ^ β = (I - K) * (s / I) ^ β := by rw [div_rpow h1.le hI.le]; ring
      have e2 : (I - K) / I * s = (I - K) * (s / I) := by ring
      have hsI := div_pos h1 hI
      have hKI' : 0 ≤ I - K := by linarith
      rw [e1]
      rcases h4 with h4 | h4
      · have hx := mul_nonneg hα1 (mul_pos (exp_pos (powRate r b σ 1 * t)) h1).le
        rw [h4, div_self hI.ne', one_rpow, mul_one]
        rw [h4] at hx
        linarith [le_max_left (I - K) 0]
      · rw [h4, mul_zero, exp_zero, one_mul]
        have := mul_le_mul_of_nonneg_left (hpow s h1 h2) hKI'
        linarith [le_max_right (s - K) 0])
    (fun T₁ => by
      obtain ⟨C, hC⟩ := hV.bounded T₁
      refine ⟨(I - K) + C, fun s t h1 h2 h3 h4 => ?_⟩
      have a := (abs_le.1 (hC s t h1 h2 h3 h4)).1
      have e1 : (I - K) / I ^ β * s ^ β = (I - K) * (s / I) ^ β := by rw [div_rpow h1.le hI.le]; ring
      have hx := mul_nonneg hα1 (mul_pos (exp_pos (powRate r b σ 1 * t)) h1).le
      have h5 : (s / I) ^ β ≤ 1 := (hpow s h1 h2.le).trans ((div_le_one hI).2 h2.le)
      have h6 := mul_le_mul_of_nonneg_left h5 (show 0 ≤ I - K by linarith)
      simp only [rpow_one]
      rw [e1]
      linarith) hS hSI hT
  simp only [rpow_one] at h
  have e1 : (I - K) / I ^ β * S ^ β = (I - K) * (S / I) ^ β := by rw [div_rpow hS.le hI.le]; ring
  have e2 : (I - K) / I * (exp (powRate r b σ 1 * T) * S) = (I - K) * (S / I * exp ((b - r) * T)) := by rw [p1]; ring
  rw [e1, neg_mul, e2] at h
  linarith

end Verif
