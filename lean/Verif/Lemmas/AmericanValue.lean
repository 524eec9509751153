import Verif.Lemmas.AmericanRate

/-!
Bermudan and American put values in the Black–Scholes model, and their distance to lattice values with early exercise.
-/
namespace Verif
open Real MeasureTheory ProbabilityTheory Spec Set _root_.Verif.Tree

/-- One Gaussian step of length `Δ`. -/
noncomputable abbrev opBS (r b σ Δ : ℝ) : (ℝ → ℝ) → ℝ → ℝ :=
  opG (exp (-r * Δ)) (σ * √Δ) ((b - σ ^ 2 / 2) * Δ)

theorem stepOp_BS {r b σ Δ : ℝ} (hr : 0 ≤ r) (hΔ : 0 ≤ Δ) :
    StepOp (exp (-r * Δ)) (exp ((b - r) * Δ)) (opBS r b σ Δ) := by
  have h := stepOp_G (D := exp (-r * Δ)) (h := σ * √Δ) (μ := (b - σ ^ 2 / 2) * Δ) (exp_pos _).le
    (by rw [exp_le_one_iff]; nlinarith)
  have e : exp (-r * Δ) * exp ((b - σ ^ 2 / 2) * Δ + (σ * √Δ) ^ 2 / 2) = exp ((b - r) * Δ) := by
    rw [mul_pow, sq_sqrt hΔ, ← exp_add]; congr 1; ring
  rw [e] at h
  exact h

theorem bermudan_put {K Δ r b σ : ℝ} (hK : 0 < K) (j : ℕ) {S : ℝ} (hS : 0 < S) :
    bermudan false K Δ r b σ j S = K * dp (opBS r b σ Δ) (every 1) j (log (S / K)) := by
  have hg : ∀ S, 0 < S → exercise false S K = K * putG1 (log (S / K)) := fun S hS => by
    unfold exercise putG1
    rw [exp_log (div_pos hS hK), mul_max_of_nonneg _ _ hK.le]
    simp only [Bool.false_eq_true, if_false, mul_zero]
    congr 1; field_simp
  induction j generalizing S with
  | zero => exact hg S hS
  | succ j ih =>
    rw [bermudan, dp, if_pos (show every 1 (j + 1) from one_dvd _), mul_max_of_nonneg _ _ hK.le, hg S hS]
    congr 1
    unfold opBS opG
    rw [mul_left_comm K, ← integral_const_mul K]
    congr 1
    refine integral_congr_ae (.of_forall fun z => ?_)
    simp only
    have ht : 0 < Spec.terminal S Δ b σ z := mul_pos hS (exp_pos _)
    rw [ih ht]
    congr 2
    unfold Spec.terminal
    rw [mul_div_right_comm, log_mul (div_pos hS hK).ne' (exp_pos _).ne', log_exp]
    ring

/-- Refining the exercise dates. -/
theorem dp_refine {r b σ Δ : ℝ} (hr : 0 ≤ r) (hΔ : 0 ≤ Δ) {m : ℕ} (hm : 0 < m) (j : ℕ) :
    dp (opBS r b σ (Δ / m)) (every m) (j * m) = dp (opBS r b σ Δ) (every 1) j := by
  have hm' : (0 : ℝ) < m := by exact_mod_cast hm
  induction j with
  | zero => simp [dp]
  | succ j ih =>
    rw [dp_block _ hm, ih, dp, if_pos (show every 1 (j + 1) from one_dvd _)]
    funext y
    congr 1
    have hN := (stepOp_BS (b := b) (σ := σ) hr hΔ).dp_nice (every 1) j
    rw [opG_iter hN]
    unfold exactF opBS opG smooth
    have e1 : exp (-r * (Δ / m)) ^ m = exp (-r * Δ) := by
      rw [← exp_nat_mul]; congr 1; field_simp
    have e2 : σ * √(Δ / m) * √m = σ * √Δ := by
      rw [mul_assoc, ← sqrt_mul (by positivity)]; congr 2; field_simp
    have e3 : (m : ℝ) * ((b - σ ^ 2 / 2) * (Δ / m)) = (b - σ ^ 2 / 2) * Δ := by field_simp
    rw [e1, e2, e3]

/-- Cost of waiting for at most `Δ`. -/
noncomputable def waiting (r b Δ : ℝ) : ℝ := exp (max (b - r) 0 * Δ) - exp (-r * Δ)

theorem waiting_nonneg {r b Δ : ℝ} (hr : 0 ≤ r) (hΔ : 0 ≤ Δ) : 0 ≤ waiting r b Δ := by
  have h0 : 0 ≤ max (b - r) 0 * Δ := mul_nonneg (le_max_right _ _) hΔ
  have := exp_le_exp.2 (show -r * Δ ≤ max (b - r) 0 * Δ by nlinarith)
  unfold waiting; linarith

theorem waiting_bound {r b δ Δ : ℝ} (hr : 0 ≤ r) (hδ : 0 ≤ δ) {q : ℕ} (hq : q * δ ≤ Δ) :
    1 - exp (-r * δ) ^ q + max (exp ((b - r) * δ) ^ q - 1) 0 ≤ waiting r b Δ := by
  have hqδ : 0 ≤ (q : ℝ) * δ := by positivity
  rw [← exp_nat_mul, ← exp_nat_mul]
  have h1 : exp (-r * Δ) ≤ exp (q * (-r * δ)) := exp_le_exp.2 (by nlinarith)
  have h2 : exp (q * ((b - r) * δ)) ≤ exp (max (b - r) 0 * Δ) := exp_le_exp.2 (by
    have a := mul_le_mul_of_nonneg_right (le_max_left (b - r) 0) hqδ
    have c := mul_le_mul_of_nonneg_left hq (le_max_right (b - r) 0)
    linarith)
  have h3 : 1 ≤ exp (max (b - r) 0 * Δ) :=
    one_le_exp (mul_nonneg (le_max_right _ _) (hqδ.trans hq))
  have h4 : max (exp (q * ((b - r) * δ)) - 1) 0 ≤ exp (max (b - r) 0 * Δ) - 1 := max_le (by linarith) (by linarith)
  unfold waiting
  linarith

/-- Bermudan put with `n` dates, as a fraction of the strike. -/
noncomputable def berm (r b σ t : ℝ) (n : ℕ) : ℝ → ℝ := dp (opBS r b σ (t / n)) (every 1) n

theorem berm_nice {r b σ t : ℝ} (hr : 0 ≤ r) (ht : 0 ≤ t) (n : ℕ) : Nice (berm r b σ t n) :=
  (stepOp_BS hr (by positivity)).dp_nice _ _

theorem berm_mul {r b σ t : ℝ} (hr : 0 ≤ r) (ht : 0 ≤ t) {n m : ℕ} (hn : 0 < n) (hm : 0 < m) (y : ℝ) :
    berm r b σ t n y ≤ berm r b σ t (n * m) y ∧
      berm r b σ t (n * m) y ≤ berm r b σ t n y + waiting r b (t / n) := by
  have hn' : (0 : ℝ) < n := by exact_mod_cast hn
  have hm' : (0 : ℝ) < m := by exact_mod_cast hm
  have e : t / (n * m : ℕ) = t / n / m := by push_cast; field_simp
  have hr2 := congrFun (dp_refine (b := b) (σ := σ) hr (show 0 ≤ t / n by positivity) hm n) y
  have hop := stepOp_BS (b := b) (σ := σ) hr (show 0 ≤ t / n / m by positivity)
  unfold berm
  rw [e, ← hr2]
  refine ⟨hop.dp_mono (fun j _ => one_dvd j) _ _, hop.dp_wait hm (exp_pos _).le (fun q hq => ?_) _ _⟩
  refine waiting_bound hr (by positivity) ?_
  have : (q : ℝ) ≤ m := by exact_mod_cast hq.le
  rw [mul_div_assoc', div_le_iff₀ hm', mul_comm]
  exact mul_le_mul_of_nonneg_left this (by positivity)

/-- Two numbers of dates. -/
theorem berm_le {r b σ t : ℝ} (hr : 0 ≤ r) (ht : 0 ≤ t) {n m : ℕ} (hn : 0 < n) (hm : 0 < m) (y : ℝ) :
    berm r b σ t m y ≤ berm r b σ t n y + waiting r b (t / n) := by
  have h1 := (berm_mul (b := b) (σ := σ) hr ht hm hn y).1
  have h2 := (berm_mul (b := b) (σ := σ) hr ht hn hm y).2
  rw [mul_comm m n] at h1
  exact h1.trans h2

theorem american_bounds {K t r b σ S : ℝ} (hS : 0 < S) (hK : 0 < K) (ht : 0 ≤ t) (hr : 0 ≤ r) {n : ℕ} (hn : 0 < n) :
    K * berm r b σ t n (log (S / K)) ≤ american false S K t r b σ ∧
      american false S K t r b σ ≤ K * (berm r b σ t n (log (S / K)) + waiting r b (t / n)) := by
  have e : ∀ n : ℕ, bermudan false K (t / (n + 1 : ℕ)) r b σ (n + 1) S = K * berm r b σ t (n + 1) (log (S / K)) :=
    fun n => bermudan_put hK _ hS
  unfold american
  simp only [e]
  have hbdd : BddAbove (range fun n : ℕ => K * berm r b σ t (n + 1) (log (S / K))) := by
    refine ⟨K, ?_⟩
    rintro _ ⟨n, rfl⟩
    exact mul_le_of_le_one_right hK.le ((berm_nice hr ht _).le_one _)
  obtain ⟨i, rfl⟩ : ∃ i, n = i + 1 := ⟨n - 1, by omega⟩
  refine ⟨le_ciSup hbdd i, ciSup_le fun m => ?_⟩
  exact mul_le_mul_of_nonneg_left (berm_le hr ht hn (Nat.succ_pos m) _) hK.le

/-- The lattice value is the dynamic programme of the lattice operator. -/
theorem lattice_dp {S K u d x x' p Df : ℝ} {n : ℕ} {V : ℕ → ℕ → ℝ} (hV : IsVal true false S K u d p Df n V)
    (hS : 0 < S) (hK : 0 < K) (hu : u = exp x) (hd : d = exp x') (hp0 : 0 ≤ p) (hp1 : p ≤ 1) (hD : 0 ≤ Df)
    (hD1 : Df ≤ 1) :
    ∀ j ≤ n, ∀ k ≤ j, V j k = K * dp (opL Df p x x') (every 1) (n - j) (log (node S u d j k / K)) := by
  have hop := stepOp_L (x := x) (x' := x') hD hD1 hp0 hp1 le_rfl
  have hpos : ∀ j k, 0 < node S u d j k := fun j k => by
    rw [hu, hd]; unfold node; positivity
  have hlog1 : ∀ j k, k ≤ j → log (node S u d (j + 1) (k + 1) / K) = log (node S u d j k / K) + x := fun j k _ => by
    have e : node S u d (j + 1) (k + 1) / K = node S u d j k / K * exp x := by
      unfold node; rw [← hu, Nat.add_sub_add_right]; ring
    rw [e, log_mul (div_pos (hpos _ _) hK).ne' (exp_pos _).ne', log_exp]
  have hlog2 : ∀ j k, k ≤ j → log (node S u d (j + 1) k / K) = log (node S u d j k / K) + x' := fun j k hk => by
    have e : node S u d (j + 1) k / K = node S u d j k / K * exp x' := by
      unfold node; rw [← hd, Nat.succ_sub hk, pow_succ]; ring
    rw [e, log_mul (div_pos (hpos _ _) hK).ne' (exp_pos _).ne', log_exp]
  have hpay : ∀ j k, K * putG1 (log (node S u d j k / K)) = max (K - node S u d j k) 0 := fun j k => by
    unfold putG1
    rw [exp_log (div_pos (hpos _ _) hK), mul_max_of_nonneg _ _ hK.le, mul_zero, mul_sub, mul_one,
      mul_div_cancel₀ _ hK.ne']
  refine level_induction (fun k hk => ?_) (fun j hj ih k hk => ?_)
  · rw [hV.terminal k hk, Nat.sub_self, dp, hpay]
    simp [payoff]
  · rw [hV.back j hj k hk, if_pos rfl]
    obtain ⟨m, hm⟩ : ∃ m, n - j = m + 1 := ⟨n - j - 1, by omega⟩
    have hm' : n - (j + 1) = m := by omega
    rw [ih (k + 1) (by omega), ih k (by omega), hm, hm', hlog1 j k hk, hlog2 j k hk, dp,
      if_pos (show every 1 (m + 1) from one_dvd _), mul_max_of_nonneg _ _ hK.le, hpay]
    have hc : Df * (p * (K * dp (opL Df p x x') (every 1) m (log (node S u d j k / K) + x))
        + (1 - p) * (K * dp (opL Df p x x') (every 1) m (log (node S u d j k / K) + x')))
        = K * opL Df p x x' (dp (opL Df p x x') (every 1) m) (log (node S u d j k / K)) := by
      unfold opL; ring
    rw [hc]
    have h0 : 0 ≤ K * opL Df p x x' (dp (opL Df p x x') (every 1) m) (log (node S u d j k / K)) :=
      mul_nonneg hK.le ((hop.nice (hop.dp_nice _ _)).nonneg _)
    simp only [intrinsic, Bool.false_eq_true, if_false]
    rw [max_assoc, max_eq_right h0]

/-- **Distance to the American value** of anything between the lattice values with exercise at every `k`-th and at every
date, from a bound `E` on the error of at most `n` steps without exercise. -/
theorem american_error {S K t r b σ p x x' X E : ℝ} (hS : 0 < S) (hK : 0 < K) (ht : 0 ≤ t) (hr : 0 ≤ r) {n k : ℕ}
    (hn : 0 < n) (hk : 0 < k) (hp0 : 0 ≤ p) (hp1 : p ≤ 1) (hM : p * exp x + (1 - p) * exp x' ≤ exp (b * (t / n)))
    (hE0 : 0 ≤ E) (hE : ∀ f, Nice f → ∀ i ≤ n, ∀ y,
      |(opL (exp (-r * (t / n))) p x x')^[i] f y - (opBS r b σ (t / n))^[i] f y| ≤ E) (hkn : k ≤ n)
    (hX1 : K * dp (opL (exp (-r * (t / n))) p x x') (every k) n (log (S / K)) ≤ X)
    (hX2 : X ≤ K * dp (opL (exp (-r * (t / n))) p x x') (every 1) n (log (S / K))) :
    |X - american false S K t r b σ|
      ≤ K * (((n / k : ℕ) + 1) * E + waiting r b (k * (t / n)) + waiting r b (t / n)) := by
  have hn' : (0 : ℝ) < n := by exact_mod_cast hn
  have hdt : 0 ≤ t / n := by positivity
  have hDM : exp (-r * (t / n)) * (p * exp x + (1 - p) * exp x') ≤ exp ((b - r) * (t / n)) := by
    have := mul_le_mul_of_nonneg_left hM (exp_pos (-r * (t / n))).le
    rw [← exp_add] at this
    refine this.trans (le_of_eq ?_)
    congr 1; ring
  have hL := stepOp_L (exp_pos (-r * (t / n))).le (by rw [exp_le_one_iff]; nlinarith) hp0 hp1 hDM
  have hG := stepOp_BS (b := b) (σ := σ) hr hdt
  set y := log (S / K)
  have hw : ∀ q < k, 1 - exp (-r * (t / n)) ^ q + max (exp ((b - r) * (t / n)) ^ q - 1) 0
      ≤ waiting r b (k * (t / n)) := fun q hq => by
    refine waiting_bound hr hdt (mul_le_mul_of_nonneg_right ?_ hdt)
    exact_mod_cast hq.le
  have w1 := hL.dp_wait hk (exp_pos _).le hw n y
  have w2 := hG.dp_wait hk (exp_pos _).le hw n y
  have m2 := hG.dp_mono (ex := every k) (ex' := every 1) (fun j _ => one_dvd j) n y
  have c := hL.dp_compare hG hk hE0 (fun f hf i hi => hE f hf i (hi.trans hkn)) n y
  obtain ⟨a1, a2⟩ := american_bounds (b := b) (σ := σ) hS hK ht hr hn
  unfold berm at a1 a2
  have c' := abs_le.1 c
  have hk0 : 0 ≤ waiting r b (k * (t / n)) := waiting_nonneg hr (by positivity)
  have hk1 : 0 ≤ waiting r b (t / n) := waiting_nonneg hr hdt
  refine abs_le.2 ⟨?_, ?_⟩
  · have : american false S K t r b σ ≤ K * (dp (opL (exp (-r * (t / n))) p x x') (every k) n y
        + ((n / k : ℕ) + 1) * E + waiting r b (k * (t / n)) + waiting r b (t / n)) :=
      a2.trans (mul_le_mul_of_nonneg_left (by linarith) hK.le)
    nlinarith
  · have : K * dp (opL (exp (-r * (t / n))) p x x') (every 1) n y
        ≤ K * (dp (opBS r b σ (t / n)) (every 1) n y + ((n / k : ℕ) + 1) * E + waiting r b (k * (t / n))) :=
      mul_le_mul_of_nonneg_left (by linarith) hK.le
    nlinarith

end Verif
