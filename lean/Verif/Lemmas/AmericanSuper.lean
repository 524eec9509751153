import Verif.Lemmas.AmericanValue
import Mathlib.Topology.Semicontinuity.Basic

/-!
The value of an American put as a function of time to expiry and log-price: regularity, and the supermartingale property.
-/
namespace Verif
open Real MeasureTheory ProbabilityTheory Spec Set Filter Topology

/-- Value of the American put with unit strike, in terms of time to expiry and log-price. -/
noncomputable def amerY (r b σ τ y : ℝ) : ℝ := ⨆ n : ℕ, berm r b σ τ (n + 1) y

variable {r b σ τ : ℝ}

theorem amerY_bounds (hr : 0 ≤ r) (hτ : 0 ≤ τ) {n : ℕ} (hn : 0 < n) (y : ℝ) :
    berm r b σ τ n y ≤ amerY r b σ τ y ∧ amerY r b σ τ y ≤ berm r b σ τ n y + waiting r b (τ / n) := by
  have hbdd : BddAbove (range fun n : ℕ => berm r b σ τ (n + 1) y) := by
    refine ⟨1, ?_⟩
    rintro _ ⟨n, rfl⟩
    exact (berm_nice hr hτ _).le_one _
  obtain ⟨i, rfl⟩ : ∃ i, n = i + 1 := ⟨n - 1, by omega⟩
  exact ⟨le_ciSup hbdd i, ciSup_le fun m => berm_le hr hτ hn (Nat.succ_pos m) _⟩

theorem american_eq_amerY {K t S : ℝ} (hS : 0 < S) (hK : 0 < K) :
    american false S K t r b σ = K * amerY r b σ t (log (S / K)) := by
  unfold american amerY
  rw [Real.mul_iSup_of_nonneg hK.le]
  exact iSup_congr fun n => bermudan_put hK _ hS

theorem waiting_tendsto (r b τ : ℝ) : Tendsto (fun n : ℕ => waiting r b (τ / n)) atTop (𝓝 0) := by
  have h : Tendsto (fun n : ℕ => τ / n) atTop (𝓝 0) := tendsto_const_div_atTop_nhds_zero_nat τ
  have hc : Continuous fun Δ => waiting r b Δ := by unfold waiting; fun_prop
  have := (hc.tendsto 0).comp h
  rw [show waiting r b 0 = 0 by simp [waiting]] at this
  exact this

theorem berm_tendsto (hr : 0 ≤ r) (hτ : 0 ≤ τ) (y : ℝ) :
    Tendsto (fun n : ℕ => berm r b σ τ n y) atTop (𝓝 (amerY r b σ τ y)) := by
  have h := (tendsto_const_nhds (x := amerY r b σ τ y)).sub (waiting_tendsto r b τ)
  rw [sub_zero] at h
  refine tendsto_of_tendsto_of_tendsto_of_le_of_le' h tendsto_const_nhds ?_ ?_
  · filter_upwards [eventually_gt_atTop 0] with n hn
    linarith [(amerY_bounds (b := b) (σ := σ) hr hτ hn y).2]
  · filter_upwards [eventually_gt_atTop 0] with n hn using (amerY_bounds hr hτ hn y).1

theorem amerY_nice (hr : 0 ≤ r) (hτ : 0 ≤ τ) : Nice (amerY r b σ τ) where
  nonneg y := ge_of_tendsto' (berm_tendsto hr hτ y) fun n => (berm_nice hr hτ n).nonneg y
  le_one y := le_of_tendsto' (berm_tendsto hr hτ y) fun n => (berm_nice hr hτ n).le_one y
  lip x y := le_of_tendsto' (((berm_tendsto hr hτ x).sub (berm_tendsto hr hτ y)).abs)
    fun n => (berm_nice hr hτ n).lip x y

theorem putG1_le_amerY (hr : 0 ≤ r) (hτ : 0 ≤ τ) (y : ℝ) : putG1 y ≤ amerY r b σ τ y := by
  refine le_trans ?_ (amerY_bounds hr hτ one_pos y).1
  show putG1 y ≤ dp _ (every 1) (0 + 1) y
  simp only [dp, if_pos (show every 1 (0 + 1) from one_dvd _)]
  exact le_max_left _ _

theorem opBS_iter {Δ : ℝ} (hΔ : 0 ≤ Δ) {f : ℝ → ℝ} (hf : Nice f) {m : ℕ} (hm : 0 < m) (y : ℝ) :
    (opBS r b σ (Δ / m))^[m] f y = opBS r b σ Δ f y := by
  have hm' : (0 : ℝ) < m := by exact_mod_cast hm
  rw [show opBS r b σ (Δ / m) = opG (exp (-r * (Δ / m))) (σ * √(Δ / m)) ((b - σ ^ 2 / 2) * (Δ / m)) from rfl, opG_iter hf]
  unfold exactF opBS opG smooth
  have e1 : exp (-r * (Δ / m)) ^ m = exp (-r * Δ) := by
    rw [← exp_nat_mul]; congr 1; field_simp
  have e2 : σ * √(Δ / m) * √m = σ * √Δ := by
    rw [mul_assoc, ← sqrt_mul (by positivity)]; congr 2; field_simp
  have e3 : (m : ℝ) * ((b - σ ^ 2 / 2) * (Δ / m)) = (b - σ ^ 2 / 2) * Δ := by field_simp
  rw [e1, e2, e3]

theorem StepOp.iter_le_dp {D M : ℝ} {T : (ℝ → ℝ) → ℝ → ℝ} (hT : StepOp D M T) (j i : ℕ) (y : ℝ) :
    T^[i] (dp T (every 1) j) y ≤ dp T (every 1) (j + i) y := by
  induction i generalizing y with
  | zero => exact le_rfl
  | succ i ih =>
    rw [Function.iterate_succ_apply', ← Nat.add_assoc, dp, if_pos (show every 1 (j + i + 1) from one_dvd _)]
    have h := hT.shift (hT.iter_nice (hT.dp_nice (every 1) j) i) (hT.dp_nice (every 1) (j + i)) le_rfl
      (fun y => by simpa using ih y) y
    rw [add_zero] at h
    exact h.trans (le_max_right _ _)

/-- Waiting for a `k`-th of the remaining time is not better than the American option. -/
theorem amerY_super (hr : 0 ≤ r) (hτ : 0 ≤ τ) {k : ℕ} (hk : 2 ≤ k) (y : ℝ) :
    opBS r b σ (τ / k) (amerY r b σ (τ - τ / k)) y ≤ amerY r b σ τ y := by
  have hk' : (0 : ℝ) < k := by exact_mod_cast (by omega : 0 < k)
  have hk1 : (1 : ℝ) ≤ k := by exact_mod_cast (by omega : 1 ≤ k)
  set δ := τ / k with hδ
  have hδ0 : 0 ≤ δ := by positivity
  have hτ' : τ - δ = (k - 1) * δ := by rw [hδ]; field_simp
  have hτ'0 : 0 ≤ τ - δ := by rw [hτ']; exact mul_nonneg (by linarith) hδ0
  have key : ∀ N : ℕ, 0 < N → opBS r b σ δ (amerY r b σ (τ - δ)) y ≤ amerY r b σ τ y + waiting r b (δ / N) := by
    intro N hN
    have hN' : (0 : ℝ) < N := by exact_mod_cast hN
    have hop := stepOp_BS (r := r) (b := b) (σ := σ) (Δ := δ / N) hr (by positivity)
    have hcast : (((k - 1) * N : ℕ) : ℝ) = (k - 1) * N := by
      rw [Nat.cast_mul, Nat.cast_sub (by omega)]; simp
    have hk2 : (0 : ℝ) < k - 1 := by
      have : (2 : ℝ) ≤ k := by exact_mod_cast hk
      linarith
    have e1 : (τ - δ) / ((k - 1) * N : ℕ) = δ / N := by rw [hcast, hτ']; field_simp
    have e2 : τ / (k * N : ℕ) = δ / N := by rw [hδ]; push_cast; field_simp
    have h1 := fun y => (amerY_bounds (b := b) (σ := σ) hr hτ'0 (show 0 < (k - 1) * N from Nat.mul_pos (by omega) hN) y).2
    have h2 := (amerY_bounds (b := b) (σ := σ) hr hτ (show 0 < k * N from Nat.mul_pos (by omega) hN) y).1
    have h3 := hop.iter_le_dp ((k - 1) * N) N y
    have e3 : (k - 1) * N + N = k * N := by
      obtain ⟨q, rfl⟩ : ∃ q, k = q + 1 := ⟨k - 1, by omega⟩
      simp; ring
    rw [e3, opBS_iter hδ0 (hop.dp_nice _ _) hN] at h3
    have h4 := (stepOp_BS (r := r) (b := b) (σ := σ) hr hδ0).shift (amerY_nice (b := b) (σ := σ) hr hτ'0)
      (berm_nice (b := b) (σ := σ) hr hτ'0 ((k - 1) * N)) (waiting_nonneg hr (by positivity)) h1 y
    unfold berm at h2 h4
    rw [e1] at h4
    rw [e2] at h2
    linarith
  have hlim := (tendsto_const_nhds (x := amerY r b σ τ y)).add (waiting_tendsto r b δ)
  rw [add_zero] at hlim
  exact ge_of_tendsto hlim (by filter_upwards [eventually_gt_atTop 0] with N hN using key N hN)

theorem dp_continuousAt (hr : 0 ≤ r) (n j : ℕ) {τ : ℝ} (hτ : 0 < τ) (y : ℝ) :
    ContinuousAt (fun q : ℝ × ℝ => dp (opBS r b σ (q.1 / n)) (every 1) j q.2) (τ, y) := by
  induction j generalizing y with
  | zero =>
    have : Continuous fun q : ℝ × ℝ => putG1 q.2 := by unfold putG1; fun_prop
    exact this.continuousAt
  | succ j ih =>
    have hev : ∀ᶠ q : ℝ × ℝ in 𝓝 (τ, y), 0 < q.1 := (isOpen_lt continuous_const continuous_fst).mem_nhds hτ
    have hg : Continuous fun q : ℝ × ℝ => putG1 q.2 := by unfold putG1; fun_prop
    have hint : ContinuousAt (fun q : ℝ × ℝ => ∫ z, dp (opBS r b σ (q.1 / n)) (every 1) j
        (q.2 + (b - σ ^ 2 / 2) * (q.1 / n) + σ * √(q.1 / n) * z) ∂gaussianReal 0 1) (τ, y) := by
      refine continuousAt_of_dominated (bound := fun _ => 1) ?_ ?_ (integrable_const _) (.of_forall fun z => ?_)
      · filter_upwards [hev] with q hq
        have := ((stepOp_BS (b := b) (σ := σ) hr (show 0 ≤ q.1 / n by positivity)).dp_nice (every 1) j).continuous
        exact (by fun_prop : Continuous _).aestronglyMeasurable
      · filter_upwards [hev] with q hq
        refine .of_forall fun z => ?_
        have := (stepOp_BS (b := b) (σ := σ) hr (show 0 ≤ q.1 / n by positivity)).dp_nice (every 1) j
        rw [norm_eq_abs, abs_of_nonneg (this.nonneg _)]
        exact this.le_one _
      · exact ContinuousAt.comp (f := fun q : ℝ × ℝ => (q.1, q.2 + (b - σ ^ 2 / 2) * (q.1 / n) + σ * √(q.1 / n) * z))
          (x := (τ, y)) (ih _) (by fun_prop)
    simp only [dp, if_pos (show every 1 (j + 1) from one_dvd _)]
    refine hg.continuousAt.max ?_
    unfold opBS opG
    exact (by fun_prop : Continuous fun q : ℝ × ℝ => exp (-r * (q.1 / n))).continuousAt.mul hint

/-- Lower semicontinuity. -/
theorem amerY_lsc (hr : 0 ≤ r) {τ : ℝ} (hτ : 0 < τ) (y : ℝ) :
    LowerSemicontinuousAt (fun q : ℝ × ℝ => amerY r b σ q.1 q.2) (τ, y) := by
  intro c hc
  obtain ⟨n, hn, hcn⟩ : ∃ n : ℕ, 0 < n ∧ c < berm r b σ τ n y :=
    ((eventually_gt_atTop 0).and ((berm_tendsto hr hτ.le y).eventually (lt_mem_nhds hc))).exists
  have h1 := (dp_continuousAt (b := b) (σ := σ) hr n n hτ y).eventually (lt_mem_nhds hcn)
  filter_upwards [h1, (isOpen_lt continuous_const continuous_fst).mem_nhds (show (0:ℝ) < ((τ, y) : ℝ × ℝ).1 from hτ)]
    with q hq hq0
  exact lt_of_lt_of_le hq (amerY_bounds hr (le_of_lt hq0) hn q.2).1

end Verif
