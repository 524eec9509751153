import Verif.Lemmas.AmericanCall
import Verif.Lemmas.AmericanBlocks
import Mathlib.Analysis.SpecialFunctions.Trigonometric.DerivHyp

/-!
American calls on lattices whose factors do not multiply to one: measured in units of the asset, a call is a put on the
lattice with the inverse factors and the probabilities `p u / m`, `(1-p) d / m`, `m = p u + (1-p) d`, discounted with
`m Df`. For JR and TIAN this lattice is not one of the same class, so the error of a block of steps is estimated afresh.
-/
namespace Verif
open Real MeasureTheory ProbabilityTheory Spec Set _root_.Verif.Tree

/-- The value of an American lattice call in units of the asset. -/
theorem lattice_dual {S K u d x x' p Df m : ℝ} {n : ℕ} {V : ℕ → ℕ → ℝ} (hV : IsVal true true S K u d p Df n V)
    (hS : 0 < S) (hK : 0 < K) (hu : u = exp x) (hd : d = exp x') (hp0 : 0 ≤ p) (hp1 : p ≤ 1) (hD : 0 ≤ Df)
    (hm : m = p * u + (1 - p) * d) (hD1 : m * Df ≤ 1) :
    ∀ j ≤ n, ∀ k ≤ j, V j k
      = Spec.node S u d j k * dp (opL (m * Df) (p * u / m) (-x) (-x')) (every 1) (n - j) (log (K / Spec.node S u d j k)) := by
  have hu0 : 0 < u := by rw [hu]; exact exp_pos _
  have hd0 : 0 < d := by rw [hd]; exact exp_pos _
  have hq : 0 ≤ 1 - p := by linarith
  have hm0 : 0 < m := by
    rw [hm]
    rcases hp0.eq_or_lt with h | h
    · rw [← h]; simpa using hd0
    · have : 0 ≤ (1 - p) * d := by positivity
      have : 0 < p * u := by positivity
      linarith
  have hq' : 1 - p * u / m = (1 - p) * d / m := by
    rw [eq_div_iff hm0.ne', sub_mul, div_mul_cancel₀ _ hm0.ne', one_mul, hm]; ring
  have hp0' : 0 ≤ p * u / m := by positivity
  have hp1' : p * u / m ≤ 1 := by
    have : 0 ≤ (1 - p) * d / m := by positivity
    linarith
  have hop := stepOp_L (x := -x) (x' := -x') (by positivity : 0 ≤ m * Df) hD1 hp0' hp1' le_rfl
  have hpos : ∀ j k, 0 < Spec.node S u d j k := fun j k => by unfold Spec.node; positivity
  have hn1 : ∀ j k, k ≤ j → Spec.node S u d (j + 1) (k + 1) = Spec.node S u d j k * u := fun j k _ => by
    unfold Spec.node; rw [Nat.add_sub_add_right]; ring
  have hn2 : ∀ j k, k ≤ j → Spec.node S u d (j + 1) k = Spec.node S u d j k * d := fun j k hk => by
    unfold Spec.node; rw [Nat.succ_sub hk, pow_succ]; ring
  have hlog1 : ∀ j k, k ≤ j → log (K / Spec.node S u d (j + 1) (k + 1)) = log (K / Spec.node S u d j k) + -x := fun j k hk => by
    rw [hn1 j k hk, ← div_div, log_div (div_pos hK (hpos _ _)).ne' hu0.ne', hu, log_exp, sub_eq_add_neg]
  have hlog2 : ∀ j k, k ≤ j → log (K / Spec.node S u d (j + 1) k) = log (K / Spec.node S u d j k) + -x' := fun j k hk => by
    rw [hn2 j k hk, ← div_div, log_div (div_pos hK (hpos _ _)).ne' hd0.ne', hd, log_exp, sub_eq_add_neg]
  have hpay : ∀ j k, Spec.node S u d j k * putG1 (log (K / Spec.node S u d j k)) = max (Spec.node S u d j k - K) 0 := fun j k => by
    have := hpos j k
    unfold putG1
    rw [exp_log (div_pos hK this), mul_max_of_nonneg _ _ this.le, mul_zero, mul_sub, mul_one,
      mul_div_cancel₀ _ this.ne']
  refine level_induction (fun k hk => ?_) (fun j hj ih k hk => ?_)
  · rw [hV.terminal k hk, Nat.sub_self, dp, hpay]
    simp [payoff]
  · rw [hV.back j hj k hk, if_pos rfl]
    obtain ⟨i, hi⟩ : ∃ i, n - j = i + 1 := ⟨n - j - 1, by omega⟩
    have hi' : n - (j + 1) = i := by omega
    have hN := hpos j k
    rw [ih (k + 1) (by omega), ih k (by omega), hi, hi', hlog1 j k hk, hlog2 j k hk, hn1 j k hk, hn2 j k hk, dp,
      if_pos (show every 1 (i + 1) from one_dvd _), mul_max_of_nonneg _ _ hN.le, hpay]
    set F := dp (opL (m * Df) (p * u / m) (-x) (-x')) (every 1) i with hF
    have hc : Df * (p * (Spec.node S u d j k * u * F (log (K / Spec.node S u d j k) + -x))
        + (1 - p) * (Spec.node S u d j k * d * F (log (K / Spec.node S u d j k) + -x')))
        = Spec.node S u d j k * opL (m * Df) (p * u / m) (-x) (-x') F (log (K / Spec.node S u d j k)) := by
      unfold opL; rw [hq']; field_simp
    rw [hc]
    have h0 : 0 ≤ Spec.node S u d j k * opL (m * Df) (p * u / m) (-x) (-x') F (log (K / Spec.node S u d j k)) :=
      mul_nonneg hN.le ((hop.nice (hop.dp_nice _ _)).nonneg _)
    simp only [intrinsic, if_true]
    rw [max_assoc, max_eq_right h0]

/-- Distance of a dynamic programme to the American value, for an arbitrary step. -/
theorem american_error_gen {S K t r b σ D M E η : ℝ} {T : (ℝ → ℝ) → ℝ → ℝ} (hT : StepOp D M T) (hM : 0 ≤ M) (hS : 0 < S)
    (hK : 0 < K) (ht : 0 ≤ t) (hr : 0 ≤ r) {n k : ℕ} (hn : 0 < n) (hk : 0 < k) (hkn : k ≤ n) (hE0 : 0 ≤ E)
    (hE : ∀ f, Nice f → ∀ i ≤ n, ∀ y, |T^[i] f y - (opBS r b σ (t / n))^[i] f y| ≤ E)
    (hη : 0 ≤ η) (hw : ∀ q < k, 1 - D ^ q + max (M ^ q - 1) 0 ≤ waiting r b (k * (t / n)) + η) :
    |K * dp T (every 1) n (log (S / K)) - american false S K t r b σ|
      ≤ K * (((n / k : ℕ) + 1) * E + η + waiting r b (k * (t / n)) + waiting r b (t / n)) := by
  have hn' : (0 : ℝ) < n := by exact_mod_cast hn
  have hdt : 0 ≤ t / n := by positivity
  have hG := stepOp_BS (b := b) (σ := σ) hr hdt
  set y := log (S / K)
  have hw' : ∀ q < k, 1 - exp (-r * (t / n)) ^ q + max (exp ((b - r) * (t / n)) ^ q - 1) 0
      ≤ waiting r b (k * (t / n)) := fun q hq => by
    refine waiting_bound hr hdt (mul_le_mul_of_nonneg_right ?_ hdt)
    exact_mod_cast hq.le
  have w1 := hT.dp_wait hk hM hw n y
  have w2 := hG.dp_wait hk (exp_pos _).le hw' n y
  have m1 := hT.dp_mono (ex := every k) (ex' := every 1) (fun j _ => one_dvd j) n y
  have m2 := hG.dp_mono (ex := every k) (ex' := every 1) (fun j _ => one_dvd j) n y
  have c := hT.dp_compare hG hk hE0 (fun f hf i hi => hE f hf i (hi.trans hkn)) n y
  obtain ⟨a1, a2⟩ := american_bounds (b := b) (σ := σ) hS hK ht hr hn
  unfold berm at a1 a2
  have c' := abs_le.1 c
  have hk0 : 0 ≤ waiting r b (k * (t / n)) := waiting_nonneg hr (by positivity)
  have hk1 : 0 ≤ waiting r b (t / n) := waiting_nonneg hr hdt
  refine abs_le.2 ⟨?_, ?_⟩
  · have : american false S K t r b σ ≤ K * (dp T (every 1) n y
        + ((n / k : ℕ) + 1) * E + η + waiting r b (k * (t / n)) + waiting r b (t / n)) :=
      a2.trans (mul_le_mul_of_nonneg_left (by linarith) hK.le)
    nlinarith
  · have : K * dp T (every 1) n y
        ≤ K * (dp (opBS r b σ (t / n)) (every 1) n y + ((n / k : ℕ) + 1) * E + η + waiting r b (k * (t / n))) :=
      mul_le_mul_of_nonneg_left (by linarith) hK.le
    nlinarith

/-- … with the steps grouped. -/
theorem american_error_rate {S K t r b σ D M C C' : ℝ} {T : (ℝ → ℝ) → ℝ → ℝ} (hT : StepOp D M T) (hM : 0 ≤ M) (hS : 0 < S)
    (hK : 0 < K) (ht : 0 ≤ t) (hr : 0 ≤ r) (hσ : 0 ≤ σ) {n : ℕ} (hn : 0 < n) (hC : 0 ≤ C) (hC' : 0 ≤ C')
    (hE : ∀ f, Nice f → ∀ i ≤ n, ∀ y, |T^[i] f y - (opBS r b σ (t / n))^[i] f y| ≤ σ * √(t / n) * C)
    (hw : ∀ q ≤ n, 1 - D ^ q + max (M ^ q - 1) 0
      ≤ 1 - exp (-r * (t / n)) ^ q + max (exp ((b - r) * (t / n)) ^ q - 1) 0 + σ * √(t / n) * C') :
    |K * dp T (every 1) n (log (S / K)) - american false S K t r b σ|
      ≤ K * (2 * (C + C') * (σ * √t) / n ^ (1 / 4 : ℝ) + 2 * waiting r b (2 * t / n ^ (1 / 4 : ℝ))) := by
  refine fourth_root_rate hK.le ht hr hσ (by positivity) hn fun k hk hkn => ?_
  have hdt : 0 ≤ t / n := by positivity
  refine (american_error_gen hT hM hS hK ht hr hn hk hkn (by positivity) hE (η := σ * √(t / n) * C') (by positivity)
    fun q hq => ?_).trans (mul_le_mul_of_nonneg_left ?_ hK.le)
  · have := waiting_bound (b := b) hr hdt (Δ := k * (t / n)) (q := q)
      (mul_le_mul_of_nonneg_right (by exact_mod_cast hq.le) hdt)
    linarith [hw q (hq.le.trans hkn)]
  · have : σ * √(t / n) * C' ≤ ((n / k : ℕ) + 1) * (σ * √(t / n) * C') := by
      have h0 : 0 ≤ ((n / k : ℕ) : ℝ) * (σ * √(t / n) * C') := by positivity
      linarith
    linarith

/-! ### JR -/

theorem opL_scale (D c p x x' : ℝ) (f : ℝ → ℝ) (i : ℕ) :
    ∀ y, (opL (D * c) p x x')^[i] f y = c ^ i * (opL D p x x')^[i] f y := by
  induction i with
  | zero => simp
  | succ i ih =>
    intro y
    rw [Function.iterate_succ_apply', Function.iterate_succ_apply']
    unfold opL at ih ⊢
    rw [ih, ih, pow_succ]; ring

theorem one_sub_pow_le {c : ℝ} (h0 : 0 ≤ c) (i : ℕ) : 1 - c ^ i ≤ i * (1 - c) := by
  have := one_add_mul_le_pow (show (-2:ℝ) ≤ c - 1 by linarith) i
  rw [show 1 + (c - 1) = c by ring] at this
  linarith

theorem one_add_half_sq_le_cosh (h : ℝ) : 1 + h ^ 2 / 2 ≤ cosh h := by
  have e : cosh h = 2 * sinh (h / 2) ^ 2 + 1 := by
    have h1 := cosh_two_mul (h / 2)
    rw [mul_div_cancel₀ _ two_ne_zero] at h1
    rw [h1, cosh_sq]; ring
  have hs : (h / 2) ^ 2 ≤ sinh (h / 2) ^ 2 := by
    rw [sq_le_sq]
    rcases le_total 0 (h / 2) with h0 | h0
    · have := self_le_sinh_iff.2 h0
      rwa [abs_of_nonneg h0, abs_of_nonneg (h0.trans this)]
    · have := sinh_le_self_iff.2 h0
      rw [abs_of_nonpos h0, abs_of_nonpos (this.trans h0)]
      linarith
  rw [e]; linarith

theorem jr_defect {h : ℝ} : 0 ≤ exp (-(h ^ 2 / 2)) * cosh h ∧ exp (-(h ^ 2 / 2)) * cosh h ≤ 1 ∧
    1 - exp (-(h ^ 2 / 2)) * cosh h ≤ h ^ 4 / 4 := by
  have hc := cosh_pos h
  have he := exp_pos (-(h ^ 2 / 2))
  refine ⟨by positivity, ?_, ?_⟩
  · have := mul_le_mul_of_nonneg_left (cosh_le_exp_half_sq h) he.le
    rw [← exp_add] at this
    simpa using this
  · have h1 : 1 - h ^ 2 / 2 ≤ exp (-(h ^ 2 / 2)) := by have := add_one_le_exp (-(h ^ 2 / 2)); linarith
    have h2 := one_add_half_sq_le_cosh h
    have h3 : exp (-(h ^ 2 / 2)) * (1 + h ^ 2 / 2) ≤ exp (-(h ^ 2 / 2)) * cosh h := mul_le_mul_of_nonneg_left h2 he.le
    have h4 : (1 - h ^ 2 / 2) * (1 + h ^ 2 / 2) ≤ exp (-(h ^ 2 / 2)) * (1 + h ^ 2 / 2) :=
      mul_le_mul_of_nonneg_right h1 (by positivity)
    nlinarith

theorem tanh_bounds {h : ℝ} (h0 : 0 < h) : 0 ≤ sinh h / cosh h ∧ sinh h / cosh h ≤ h ∧ h - h ^ 3 / 2 ≤ sinh h / cosh h := by
  have hc := cosh_pos h
  have hs : h ≤ sinh h := self_le_sinh_iff.2 h0.le
  refine ⟨by have : 0 ≤ sinh h := h0.le.trans hs; positivity, ?_, ?_⟩
  · rw [div_le_iff₀ hc]
    obtain ⟨c, hc, e⟩ := exists_hasDerivAt_eq_slope sinh cosh h0 (by fun_prop) (fun x _ => hasDerivAt_sinh x)
    rw [sinh_zero, sub_zero, sub_zero, eq_div_iff h0.ne'] at e
    have : cosh c ≤ cosh h := cosh_le_cosh.2 (by rw [abs_of_pos hc.1, abs_of_pos h0]; exact hc.2.le)
    nlinarith
  · rw [le_div_iff₀ hc]
    have h1 := cosh_le_exp_half_sq h
    have h2 : 1 - h ^ 2 / 2 ≤ exp (-(h ^ 2 / 2)) := by have := add_one_le_exp (-(h ^ 2 / 2)); linarith
    have h3 : exp (-(h ^ 2 / 2)) * cosh h ≤ 1 := jr_defect.2.1
    have h4 : (1 - h ^ 2 / 2) * cosh h ≤ 1 := (mul_le_mul_of_nonneg_right h2 hc.le).trans h3
    calc (h - h ^ 3 / 2) * cosh h = h * ((1 - h ^ 2 / 2) * cosh h) := by ring
      _ ≤ h * 1 := mul_le_mul_of_nonneg_left h4 h0.le
      _ ≤ sinh h := by linarith

/-- Moments of a JR step in units of the asset. -/
theorem jr_dual_moments {h τ p : ℝ} (h0 : 0 < h) (h1 : h ≤ 1) (hp : p = (1 + τ) / 2) (t0 : 0 ≤ τ) (t1 : τ ≤ h)
    (t2 : h - h ^ 3 / 2 ≤ τ) :
    p * |h ^ 2 - h| + (1 - p) * |h ^ 2 + h| ≤ 2 * h ∧
    |p * (h ^ 2 - h) + (1 - p) * (h ^ 2 + h)| ≤ h ^ 4 / 2 ∧
    |p * (h ^ 2 - h) ^ 2 + (1 - p) * (h ^ 2 + h) ^ 2 - h ^ 2| ≤ h ^ 4 ∧
    |p * (h ^ 2 - h) ^ 3 + (1 - p) * (h ^ 2 + h) ^ 3| ≤ 4 * h ^ 4 ∧
    p * (h ^ 2 - h) ^ 4 + (1 - p) * (h ^ 2 + h) ^ 4 ≤ 8 * h ^ 4 := by
  have hp0 : 0 ≤ p := by rw [hp]; linarith
  have hq0 : 0 ≤ 1 - p := by rw [hp]; linarith
  have hh : h ^ 2 ≤ h := by nlinarith
  have h3 : 0 ≤ h ^ 3 := by positivity
  have h5 : 0 ≤ h ^ 5 := by positivity
  have h7 : 0 ≤ h ^ 7 := by positivity
  have h4 : 0 ≤ h ^ 4 := by positivity
  have p6 : h ^ 6 ≤ h ^ 4 := pow_le_pow_of_le_one h0.le h1 (by norm_num)
  have p8 : h ^ 8 ≤ h ^ 4 := pow_le_pow_of_le_one h0.le h1 (by norm_num)
  have a1 : 0 ≤ h ^ 3 * τ := mul_nonneg h3 t0
  have a2 : h ^ 3 * τ ≤ h ^ 3 * h := mul_le_mul_of_nonneg_left t1 h3
  have a3 : 0 ≤ h ^ 5 * τ := mul_nonneg h5 t0
  have a4 : h ^ 5 * τ ≤ h ^ 5 * h := mul_le_mul_of_nonneg_left t1 h5
  have a5 : 0 ≤ h ^ 7 * τ := mul_nonneg h7 t0
  have a6 : h * τ ≤ h * h := mul_le_mul_of_nonneg_left t1 h0.le
  have a7 : h * (h - h ^ 3 / 2) ≤ h * τ := mul_le_mul_of_nonneg_left t2 h0.le
  refine ⟨?_, ?_, ?_, ?_, ?_⟩
  · rw [abs_of_nonpos (by linarith), abs_of_nonneg (by positivity)]
    have i1 := mul_le_mul_of_nonneg_left (show -(h ^ 2 - h) ≤ 2 * h by nlinarith) hp0
    have i2 := mul_le_mul_of_nonneg_left (show h ^ 2 + h ≤ 2 * h by linarith) hq0
    linarith
  · have e : p * (h ^ 2 - h) + (1 - p) * (h ^ 2 + h) = h ^ 2 - h * τ := by rw [hp]; ring
    rw [e, abs_le]; constructor <;> nlinarith
  · have e : p * (h ^ 2 - h) ^ 2 + (1 - p) * (h ^ 2 + h) ^ 2 - h ^ 2 = h ^ 4 - 2 * (h ^ 3 * τ) := by rw [hp]; ring
    rw [e, abs_le]; constructor <;> nlinarith
  · have e : p * (h ^ 2 - h) ^ 3 + (1 - p) * (h ^ 2 + h) ^ 3 = h ^ 6 - 3 * (h ^ 5 * τ) + 3 * h ^ 4 - h ^ 3 * τ := by
      rw [hp]; ring
    rw [e, abs_le]
    have e1 : h ^ 3 * h = h ^ 4 := by ring
    have e2 : h ^ 5 * h = h ^ 6 := by ring
    rw [e1] at a2
    rw [e2] at a4
    have : 0 ≤ h ^ 6 := by positivity
    constructor <;> linarith
  · have e : p * (h ^ 2 - h) ^ 4 + (1 - p) * (h ^ 2 + h) ^ 4
        = h ^ 8 - 4 * (h ^ 7 * τ) + 6 * h ^ 6 - 4 * (h ^ 5 * τ) + h ^ 4 := by rw [hp]; ring
    rw [e]; linarith

/-- Error of a block of JR steps in units of the asset. -/
theorem jr_dual_block {D h μ c p : ℝ} (hD0 : 0 ≤ D) (hD1 : D ≤ 1) (h0 : 0 < h) (hc : c = exp (-(h ^ 2 / 2)) * cosh h)
    (hp : p = (1 + sinh h / cosh h) / 2) {n : ℕ} (f : ℝ → ℝ) (hf : Nice f) (i : ℕ) (hi : i ≤ n) (y : ℝ) :
    |(opL (D * c) p (μ + (h ^ 2 - h)) (μ + (h ^ 2 + h)))^[i] f y - (opG D h μ)^[i] f y|
      ≤ h * (11 + 5 * (h * √n) + (h * √n) ^ 2) ∧ 1 - c ^ i ≤ h * (1 + (h * √n) ^ 2 / 4) := by
  obtain ⟨c0, c1, c2⟩ := jr_defect (h := h)
  rw [← hc] at c0 c1 c2
  obtain ⟨t0, t1, t2⟩ := tanh_bounds h0
  have hlt : sinh h / cosh h ≤ 1 := by
    rw [div_le_one (cosh_pos h)]; exact (sinh_lt_cosh h).le
  have hp0 : 0 ≤ p := by rw [hp]; linarith
  have hp1 : p ≤ 1 := by rw [hp]; linarith
  have hn0 : 0 ≤ √(n : ℝ) := sqrt_nonneg _
  have hnn : √(n : ℝ) ^ 2 = n := sq_sqrt (by positivity)
  have hx : 0 ≤ h * √n := by positivity
  have hin : (i : ℝ) ≤ n := by exact_mod_cast hi
  have hci : 0 ≤ c ^ i := by positivity
  have hL := stepOp_L (x := μ + (h ^ 2 - h)) (x' := μ + (h ^ 2 + h)) hD0 hD1 hp0 hp1 le_rfl
  have hG := stepOp_G (h := h) (μ := μ) hD0 hD1
  have nL := hL.iter_nice hf i
  have nG := hG.iter_nice hf i
  have hdef : 1 - c ^ i ≤ h * (1 + (h * √n) ^ 2 / 4) := by
    rcases le_or_gt h 1 with h1 | h1
    · have b := one_sub_pow_le c0 i
      have b2 : (i : ℝ) * (1 - c) ≤ n * (h ^ 4 / 4) := mul_le_mul hin c2 (by linarith) (by positivity)
      have e : n * (h ^ 4 / 4) = h * (h * ((h * √n) ^ 2 / 4)) := by rw [mul_pow, hnn]; ring
      have b3 : h * ((h * √n) ^ 2 / 4) ≤ 1 * ((h * √n) ^ 2 / 4) := mul_le_mul_of_nonneg_right h1 (by positivity)
      rw [e] at b2
      have := mul_le_mul_of_nonneg_left (show h * ((h * √n) ^ 2 / 4) ≤ 1 + (h * √n) ^ 2 / 4 by linarith) h0.le
      linarith
    · have : 0 ≤ h * ((h * √n) ^ 2 / 4) := by positivity
      linarith
  refine ⟨?_, hdef⟩
  rw [opL_scale]
  have d1 : |c ^ i * (opL D p (μ + (h ^ 2 - h)) (μ + (h ^ 2 + h)))^[i] f y
      - (opL D p (μ + (h ^ 2 - h)) (μ + (h ^ 2 + h)))^[i] f y| ≤ h * (1 + (h * √n) ^ 2 / 4) := by
    have l0 := nL.nonneg y
    have l1 := nL.le_one y
    have hc1 : c ^ i ≤ 1 := pow_le_one₀ c0 c1
    generalize (opL D p (μ + (h ^ 2 - h)) (μ + (h ^ 2 + h)))^[i] f y = F at *
    rw [abs_le]
    constructor <;> nlinarith
  have d2 : |(opL D p (μ + (h ^ 2 - h)) (μ + (h ^ 2 + h)))^[i] f y - (opG D h μ)^[i] f y|
      ≤ h * (10 + 5 * (h * √n) + (h * √n) ^ 2 / 2) := by
    rcases le_or_gt h 1 with h1 | h1
    · obtain ⟨q0, q1, q2, q3, q4⟩ := jr_dual_moments h0 h1 hp t0 t1 t2
      have key := block_moments (Q := 11 / 24 * h ^ 4) (x := μ + (h ^ 2 - h)) (x' := μ + (h ^ 2 + h)) (μ := μ) hf hD0 hD1
        hp0 hp1 h0 (by simpa only [add_sub_cancel_left] using q0) (by simpa only [add_sub_cancel_left] using q1)
        (by simpa only [add_sub_cancel_left] using q2) (by simpa only [add_sub_cancel_left] using q3)
        (by simpa only [add_sub_cancel_left] using q4) (by ring) hi y
      refine key.trans ?_
      have e : 2 * h + h + n * (h ^ 4 / 2) + 2 * √n * (3 / 4 * h ^ 4 / h) + 2 * √n * (5 / 12 * (4 * h ^ 4) / h ^ 2)
          + 3 * (5 * (11 / 24 * h ^ 4) / h ^ 3)
          = h * (79 / 8 + h * ((h * √n) ^ 2 / 2) + 3 / 2 * (h * (h * √n)) + 10 / 3 * (h * √n)) := by
        rw [show (n : ℝ) * (h ^ 4 / 2) = √n ^ 2 * (h ^ 4 / 2) by rw [hnn]]; field_simp; ring
      rw [e]
      refine mul_le_mul_of_nonneg_left ?_ h0.le
      have b3 : h * ((h * √n) ^ 2 / 2) ≤ 1 * ((h * √n) ^ 2 / 2) := mul_le_mul_of_nonneg_right h1 (by positivity)
      have b4 : h * (h * √n) ≤ 1 * (h * √n) := mul_le_mul_of_nonneg_right h1 hx
      linarith
    · have : |(opL D p (μ + (h ^ 2 - h)) (μ + (h ^ 2 + h)))^[i] f y - (opG D h μ)^[i] f y| ≤ 1 := by
        rw [abs_le]
        constructor <;> linarith [nL.nonneg y, nL.le_one y, nG.nonneg y, nG.le_one y]
      have h2 : 0 ≤ h * (5 * (h * √n) + (h * √n) ^ 2 / 2) := by positivity
      linarith
  have := abs_add_le (c ^ i * (opL D p (μ + (h ^ 2 - h)) (μ + (h ^ 2 + h)))^[i] f y
      - (opL D p (μ + (h ^ 2 - h)) (μ + (h ^ 2 + h)))^[i] f y)
      ((opL D p (μ + (h ^ 2 - h)) (μ + (h ^ 2 + h)))^[i] f y - (opG D h μ)^[i] f y)
  rw [sub_add_sub_cancel] at this
  have h2 : 0 ≤ h * (h * √n) ^ 2 := by positivity
  linarith

/-! ### TIAN -/

theorem Nice.reflect {f : ℝ → ℝ} (hf : Nice f) : Nice (fun y => f (-y)) where
  nonneg x := hf.nonneg _
  le_one x := hf.le_one _
  lip x y := (hf.lip (-x) (-y)).trans (le_of_eq (by rw [← abs_neg (x - y)]; congr 1; ring))

theorem opL_reflect (D p x x' : ℝ) (f : ℝ → ℝ) (i : ℕ) :
    ∀ y, (opL D p (-x) (-x'))^[i] f y = (opL D p x x')^[i] (fun y => f (-y)) (-y) := by
  induction i with
  | zero => simp
  | succ i ih =>
    intro y
    rw [Function.iterate_succ_apply', Function.iterate_succ_apply']
    unfold opL at ih ⊢
    rw [ih, ih]
    congr 5 <;> ring_nf

theorem opG_reflect (D h μ : ℝ) (f : ℝ → ℝ) (i : ℕ) :
    ∀ y, (opG D h μ)^[i] f y = (opG D h (-μ))^[i] (fun y => f (-y)) (-y) := by
  induction i with
  | zero => simp
  | succ i ih =>
    intro y
    rw [Function.iterate_succ_apply', Function.iterate_succ_apply']
    unfold opG at ih ⊢
    simp only [ih]
    rw [← integral_gauss_neg]
    congr 1
    refine integral_congr_ae (.of_forall fun z => ?_)
    ring_nf

/-- Taylor's formula for `ρ ↦ ρ f (c + log ρ)` at `ρ = 1`. -/
theorem taylor_weighted {f f1 f2 f3 f4 : ℝ → ℝ} {c : ℝ} (h1 : ∀ w, HasDerivAt f (f1 w) w)
    (h2 : ∀ w, HasDerivAt f1 (f2 w) w) (h3 : ∀ w, HasDerivAt f2 (f3 w) w) (h4 : ∀ w, HasDerivAt f3 (f4 w) w) {B : ℝ}
    (hB : ∀ w, |f4 w - 2 * f3 w - f2 w + 2 * f1 w| ≤ B) {ρ : ℝ} (hρ : 0 < ρ) :
    |ρ * f (c + log ρ) - (f c + (f c + f1 c) * (ρ - 1) + (f1 c + f2 c) * (ρ - 1) ^ 2 / 2
        + (f3 c - f1 c) * (ρ - 1) ^ 3 / 6)| ≤ B / 12 * ((ρ - 1) ^ 4 + (1 - 1 / ρ) ^ 4) := by
  have hB0 : 0 ≤ B := (abs_nonneg _).trans (hB 0)
  have hpos : ∀ w ∈ uIcc 1 ρ, 0 < w := fun w hw => (lt_min one_pos hρ).trans_le hw.1
  have hl : ∀ w, 0 < w → HasDerivAt (fun w => c + log w) (1 / w) w := fun w hw => by
    simpa using (hasDerivAt_log hw.ne').const_add c
  have hi : ∀ w : ℝ, 0 < w → ∀ k : ℕ, HasDerivAt (fun w : ℝ => w ^ k) (k * w ^ (k - 1)) w := fun w _ k => hasDerivAt_pow k w
  have key := taylor4 (c := 1) (u := ρ) (f := fun w => w * f (c + log w)) (f1 := fun w => f (c + log w) + f1 (c + log w))
    (f2 := fun w => (f1 (c + log w) + f2 (c + log w)) / w ^ 1)
    (f3 := fun w => (f3 (c + log w) - f1 (c + log w)) / w ^ 2)
    (f4 := fun w => (f4 (c + log w) - 2 * f3 (c + log w) - f2 (c + log w) + 2 * f1 (c + log w)) / w ^ 3)
    (B := B * (2 * (1 + 1 / ρ ^ 4)))
    (fun w hw => by
      have h0 := hpos w hw
      exact ((hasDerivAt_id w).mul ((h1 _).comp w (hl w h0))).congr_deriv (by
        simp only [Function.comp, id]; field_simp))
    (fun w hw => by
      have h0 := hpos w hw
      exact (((h1 _).comp w (hl w h0)).add ((h2 _).comp w (hl w h0))).congr_deriv (by
        field_simp))
    (fun w hw => by
      have h0 := hpos w hw
      exact ((((h2 _).comp w (hl w h0)).add ((h3 _).comp w (hl w h0))).div (hi w h0 1) (by positivity)).congr_deriv (by
        simp only [Function.comp, Pi.add_apply]; field_simp; push_cast; ring))
    (fun w hw => by
      have h0 := hpos w hw
      exact ((((h4 _).comp w (hl w h0)).sub ((h2 _).comp w (hl w h0))).div (hi w h0 2) (by positivity)).congr_deriv (by
        simp only [Function.comp, Pi.sub_apply]; field_simp; push_cast; ring))
    (fun w hw => by
      have h0 := hpos w hw
      rw [abs_div, abs_of_pos (pow_pos h0 3), div_eq_mul_one_div]
      refine mul_le_mul (hB _) ?_ (by positivity) hB0
      have hw1 : min 1 ρ ≤ w := hw.1
      rcases le_total 1 ρ with h | h
      · rw [min_eq_left h] at hw1
        have : 1 / w ^ 3 ≤ 1 := by rw [div_le_one (by positivity)]; exact one_le_pow₀ hw1
        have : 0 < 1 / ρ ^ 4 := by positivity
        linarith
      · rw [min_eq_right h] at hw1
        have a1 : 1 / w ^ 3 ≤ 1 / ρ ^ 3 := one_div_le_one_div_of_le (by positivity) (pow_le_pow_left₀ hρ.le hw1 3)
        have a2 : 1 / ρ ^ 3 ≤ 1 / ρ ^ 4 :=
          one_div_le_one_div_of_le (by positivity) (pow_le_pow_of_le_one hρ.le h (by norm_num))
        have : 0 < 1 / ρ ^ 4 := by positivity
        linarith)
  simp only [log_one, add_zero, one_pow, div_one, one_mul] at key
  refine key.trans (le_of_eq ?_)
  field_simp; ring

/-- One step, in units of the asset, of a lattice that matches three moments of the lognormal ratio. -/
theorem one_step_weighted {f f1 f2 f3 f4 : ℝ → ℝ} {B0 B : ℝ} (h1 : ∀ w, HasDerivAt f (f1 w) w)
    (h2 : ∀ w, HasDerivAt f1 (f2 w) w) (h3 : ∀ w, HasDerivAt f2 (f3 w) w) (h4 : ∀ w, HasDerivAt f3 (f4 w) w)
    (hB0 : ∀ w, |f w| ≤ B0) (hB : ∀ w, |f4 w - 2 * f3 w - f2 w + 2 * f1 w| ≤ B) {p : ℝ} (hp0 : 0 ≤ p)
    (hp1 : p ≤ 1) (c h : ℝ) {V w ρ ρ' : ℝ} (hV : V = exp (h ^ 2)) (hw : V = 1 + w) (hw0 : 0 ≤ w) (hw4 : w ≤ 1 / 4)
    (hρ : 0 < ρ) (hρ' : 0 < ρ') (m1 : p * (ρ - 1) + (1 - p) * (ρ' - 1) = 0)
    (m2 : p * (ρ - 1) ^ 2 + (1 - p) * (ρ' - 1) ^ 2 = w)
    (m3 : p * (ρ - 1) ^ 3 + (1 - p) * (ρ' - 1) ^ 3 = w ^ 2 * (w + 3))
    (m4 : p * ((ρ - 1) ^ 4 + (1 - 1 / ρ) ^ 4) + (1 - p) * ((ρ' - 1) ^ 4 + (1 - 1 / ρ') ^ 4) ≤ 62 * w ^ 2) :
    |p * ρ * f (c + log ρ) + (1 - p) * ρ' * f (c + log ρ') - ∫ z, f (c + (h * z + h ^ 2 / 2)) ∂gaussianReal 0 1|
      ≤ 25 / 3 * w ^ 2 * B := by
  have hBn : 0 ≤ B := (abs_nonneg _).trans (hB 0)
  have hcont : Continuous f := continuous_iff_continuousAt.2 fun w => (h1 w).continuousAt
  have hint : Integrable (fun z => exp (h * z - h ^ 2 / 2) * f (c + (h * z - h ^ 2 / 2))) (gaussianReal 0 1) := by
    have := (gauss_exp_int 1 h).mul_const B0
    simp only [one_mul] at this
    refine this.mono' (by fun_prop) (.of_forall fun z => ?_)
    rw [norm_eq_abs, abs_mul, abs_of_pos (exp_pos _)]
    exact mul_le_mul_of_nonneg_left (hB0 _) (exp_pos _).le
  have htilt : ∫ z, f (c + (h * z + h ^ 2 / 2)) ∂gaussianReal 0 1
      = ∫ z, exp (h * z - h ^ 2 / 2) * f (c + (h * z - h ^ 2 / 2)) ∂gaussianReal 0 1 := by
    have e : ∀ z, exp (h * z - h ^ 2 / 2) * f (c + (h * z - h ^ 2 / 2))
        = exp (-(h ^ 2 / 2)) * (exp (h * z) * f (c + (h * z - h ^ 2 / 2))) := fun z => by
      rw [← mul_assoc, ← exp_add]; congr 2; ring
    simp only [e]
    rw [integral_const_mul, gauss_tilt h (fun z => f (c + (h * z - h ^ 2 / 2))), ← mul_assoc, ← exp_add,
      neg_add_cancel, exp_zero, one_mul]
    refine integral_congr_ae (.of_forall fun z => ?_)
    simp only
    congr 1; ring
  rw [htilt]
  obtain ⟨k1, k2, k3, tay⟩ : ∃ k1 k2 k3 : ℝ, ∀ r : ℝ, 0 < r → |r * f (c + log r) - (f c + k1 * (r - 1)
      + k2 * (r - 1) ^ 2 / 2 + k3 * (r - 1) ^ 3 / 6)| ≤ B / 12 * ((r - 1) ^ 4 + (1 - 1 / r) ^ 4) :=
    ⟨_, _, _, fun r hr => taylor_weighted (c := c) h1 h2 h3 h4 hB hr⟩
  obtain ⟨g1, g2⟩ := gauss_moments h (f c) k1 k2 k3 hV hw
  obtain ⟨g3, g4⟩ := gauss_remainder h hV
  have hG : |(∫ z, exp (h * z - h ^ 2 / 2) * f (c + (h * z - h ^ 2 / 2)) ∂gaussianReal 0 1)
      - (f c + k2 * w / 2 + k3 * (w ^ 2 * (w + 3)) / 6)| ≤ B / 12 * (38 * w ^ 2) := by
    rw [← g2, ← integral_sub hint g1]
    have hm := norm_integral_le_of_norm_le (μ := gaussianReal 0 1) (g3.const_mul (B / 12)) (.of_forall fun z => by
      have := tay _ (exp_pos (h * z - h ^ 2 / 2))
      rw [log_exp] at this
      rwa [norm_eq_abs])
    rw [integral_const_mul, g4, norm_eq_abs, hw] at hm
    exact hm.trans (mul_le_mul_of_nonneg_left (remainder_le hw0 hw4) (by positivity))
  have hq : 0 ≤ 1 - p := by linarith
  have ha := tay _ hρ
  have ha' := tay _ hρ'
  have hL : |p * ρ * f (c + log ρ) + (1 - p) * ρ' * f (c + log ρ') - (f c + k2 * w / 2 + k3 * (w ^ 2 * (w + 3)) / 6)|
      ≤ B / 12 * (62 * w ^ 2) := by
    calc _ = |p * (ρ * f (c + log ρ) - (f c + k1 * (ρ - 1) + k2 * (ρ - 1) ^ 2 / 2 + k3 * (ρ - 1) ^ 3 / 6))
          + (1 - p) * (ρ' * f (c + log ρ') - (f c + k1 * (ρ' - 1) + k2 * (ρ' - 1) ^ 2 / 2 + k3 * (ρ' - 1) ^ 3 / 6))| := by
          congr 1
          linear_combination k1 * m1 + k2 / 2 * m2 + k3 / 6 * m3
      _ ≤ p * (B / 12 * ((ρ - 1) ^ 4 + (1 - 1 / ρ) ^ 4)) + (1 - p) * (B / 12 * ((ρ' - 1) ^ 4 + (1 - 1 / ρ') ^ 4)) := by
          refine (abs_add_le _ _).trans (add_le_add ?_ ?_) <;> rw [abs_mul]
          · rw [abs_of_nonneg hp0]; exact mul_le_mul_of_nonneg_left ha hp0
          · rw [abs_of_nonneg hq]; exact mul_le_mul_of_nonneg_left ha' hq
      _ = B / 12 * (p * ((ρ - 1) ^ 4 + (1 - 1 / ρ) ^ 4) + (1 - p) * ((ρ' - 1) ^ 4 + (1 - 1 / ρ') ^ 4)) := by ring
      _ ≤ _ := mul_le_mul_of_nonneg_left m4 (by positivity)
  have e : 25 / 3 * w ^ 2 * B = B / 12 * (62 * w ^ 2) + B / 12 * (38 * w ^ 2) := by ring
  rw [e]
  have := abs_sub (p * ρ * f (c + log ρ) + (1 - p) * ρ' * f (c + log ρ')
      - (f c + k2 * w / 2 + k3 * (w ^ 2 * (w + 3)) / 6))
    ((∫ z, exp (h * z - h ^ 2 / 2) * f (c + (h * z - h ^ 2 / 2)) ∂gaussianReal 0 1)
      - (f c + k2 * w / 2 + k3 * (w ^ 2 * (w + 3)) / 6))
  rw [sub_sub_sub_cancel_right] at this
  exact this.trans (add_le_add hL hG)

theorem tian_combination_dual {f : ℝ → ℝ} (hf : Nice f) {s : ℝ} (hs : 0 < s) (w : ℝ) :
    |smoothD He4 4 s f w - 2 * smoothD He3 3 s f w - smoothD He2 2 s f w + 2 * smoothD He1 1 s f w|
      ≤ 2 + 3 / 2 * (1 / s) + 5 * (1 / s ^ 2) + 5 * (1 / s ^ 3) := by
  have b1 := abs_le.1 (hf.abs_deriv1 hs w)
  have b2 := abs_le.1 (hf.abs_deriv2 hs w)
  have b3 := abs_le.1 (hf.abs_deriv3 hs w)
  have b4 := abs_le.1 (hf.abs_deriv4 hs w)
  have d1 : 3 / 2 / s = 3 / 2 * (1 / s) := by ring
  have d2 : 5 / 2 / s ^ 2 = 5 / 2 * (1 / s ^ 2) := by ring
  have d3 : 5 / s ^ 3 = 5 * (1 / s ^ 3) := by ring
  rw [d1] at b2
  rw [d2] at b3
  rw [d3] at b4
  rw [abs_le]
  constructor <;> linarith [b1.1, b1.2, b2.1, b2.2, b3.1, b3.2, b4.1, b4.2]

/-- The first moment of the logarithm of a Tian step in units of the asset. -/
theorem tian_first_dual {p h w ρ ρ' : ℝ} (hp0 : 0 ≤ p) (hp1 : p ≤ 1) (h0 : 0 < h) (hhalf : h ≤ 1 / 2)
    (hw1 : w ≤ 6 / 5 * h ^ 2) (h1 : 1 < ρ) (h2 : 1 / 2 ≤ ρ') (m1 : p * (ρ - 1) + (1 - p) * (ρ' - 1) = 0)
    (m2 : p * (ρ - 1) ^ 2 + (1 - p) * (ρ' - 1) ^ 2 = w) :
    p * ρ * |log ρ - h ^ 2 / 2| + (1 - p) * ρ' * |log ρ' - h ^ 2 / 2| ≤ 4 * h := by
  have hq : 0 ≤ 1 - p := by linarith
  have hh : 0 < h ^ 2 := by positivity
  have hv : ∀ v : ℝ, |v| ≤ (v ^ 2 / h + h) / 2 := fun v => by
    have e : (v ^ 2 / h + h) / 2 - |v| = (|v| - h) ^ 2 / (2 * h) := by
      rw [sub_sq, sq_abs]; field_simp; ring
    have : 0 ≤ (|v| - h) ^ 2 / (2 * h) := by positivity
    linarith
  have hroot : p * |ρ - 1| + (1 - p) * |ρ' - 1| ≤ 11 / 10 * h := by
    have t1 := mul_le_mul_of_nonneg_left (hv (ρ - 1)) hp0
    have t2 := mul_le_mul_of_nonneg_left (hv (ρ' - 1)) hq
    have e : p * (((ρ - 1) ^ 2 / h + h) / 2) + (1 - p) * (((ρ' - 1) ^ 2 / h + h) / 2) = (w / h + h) / 2 := by
      rw [← m2]; ring
    have hwh : w / h ≤ 6 / 5 * h := by rw [div_le_iff₀ h0]; nlinarith
    linarith
  have q : ∀ ρ : ℝ, 1 / 2 ≤ ρ → ρ * |log ρ - h ^ 2 / 2| ≤ 2 * |ρ - 1| + 2 * (ρ - 1) ^ 2 + ρ * (h ^ 2 / 2) := fun ρ hρ => by
    have a := (abs_sub (log ρ) (h ^ 2 / 2)).trans (add_le_add (log_abs_le hρ) (abs_of_nonneg (by positivity)).le)
    have a1 := mul_le_mul_of_nonneg_left a (show 0 ≤ ρ by linarith)
    have a2 : ρ * |ρ - 1| ≤ |ρ - 1| + (ρ - 1) ^ 2 := by
      rw [← sq_abs (ρ - 1)]
      have : (ρ - 1) * |ρ - 1| ≤ |ρ - 1| * |ρ - 1| := mul_le_mul_of_nonneg_right (le_abs_self _) (abs_nonneg _)
      nlinarith
    nlinarith
  have t1 := mul_le_mul_of_nonneg_left (q ρ (by linarith)) hp0
  have t2 := mul_le_mul_of_nonneg_left (q ρ' h2) hq
  have e : p * (2 * |ρ - 1| + 2 * (ρ - 1) ^ 2 + ρ * (h ^ 2 / 2)) + (1 - p) * (2 * |ρ' - 1| + 2 * (ρ' - 1) ^ 2
      + ρ' * (h ^ 2 / 2)) = 2 * (p * |ρ - 1| + (1 - p) * |ρ' - 1|) + 2 * w + h ^ 2 / 2 := by
    linear_combination (h ^ 2 / 2) * m1 + 2 * m2
  have hh3 : h ^ 2 ≤ 1 / 2 * h := by nlinarith
  rw [mul_assoc, mul_assoc]
  linarith

theorem tian_dual_arith {h : ℝ} (h0 : 0 < h) (hh : h ≤ 1 / 2) (n : ℕ) :
    5 * h + n * (24 * h ^ 4) + 2 * √n * (18 * h ^ 3) + 2 * √n * (60 * h ^ 2) + 3 * (60 * h)
      ≤ h * (185 + 138 * (h * √n) + 12 * (h * √n) ^ 2) := by
  have hnn : √(n : ℝ) ^ 2 = n := sq_sqrt (by positivity)
  have hq : 0 ≤ √(n : ℝ) := sqrt_nonneg _
  generalize √(n : ℝ) = q at *
  rw [← hnn]
  have e : 5 * h + q ^ 2 * (24 * h ^ 4) + 2 * q * (18 * h ^ 3) + 2 * q * (60 * h ^ 2) + 3 * (60 * h)
      = h * (185 + 24 * (h * (h * q) ^ 2) + 36 * (h * (h * q)) + 120 * (h * q)) := by ring
  rw [e]
  refine mul_le_mul_of_nonneg_left ?_ h0.le
  have hx : 0 ≤ h * q := by positivity
  generalize h * q = x at *
  have a1 : h * x ^ 2 ≤ 1 / 2 * x ^ 2 := mul_le_mul_of_nonneg_right hh (sq_nonneg x)
  have a2 : h * x ≤ 1 / 2 * x := mul_le_mul_of_nonneg_right hh hx
  linarith

set_option maxHeartbeats 1000000 in
/-- Error of a block of TIAN steps in units of the asset. -/
theorem tian_dual_block {t r b σ : ℝ} (ht : 0 < t) (hr : 0 ≤ r - b) (hσ : 0 < σ) {n : ℕ} (hn : 0 < n)
    (hs : σ ^ 2 * (t / n) ≤ 1 / 5) {M W u d p : ℝ} (hM : M = exp (b * (t / n))) (hW : W = exp (σ ^ 2 * (t / n)))
    (hu : u = M * W / 2 * (W + 1 + √(W * W + 2 * W - 3))) (hd : d = M * W / 2 * (W + 1 - √(W * W + 2 * W - 3)))
    (hp : p = (M - d) / (u - d)) (hp0 : 0 ≤ p) (hp1 : p ≤ 1) (f : ℝ → ℝ) (hf : Nice f) (i : ℕ) (hi : i ≤ n) (y : ℝ) :
    |(opL (exp (-(r - b) * (t / n))) (p * u / M) (-log u) (-log d))^[i] f y - (opBS (r - b) (-b) σ (t / n))^[i] f y|
      ≤ σ * √(t / n) * (185 + 138 * (σ * √t) + 12 * (σ * √t) ^ 2) := by
  have hn' : (0 : ℝ) < n := by exact_mod_cast hn
  have hdt : 0 < t / n := by positivity
  have hD : exp (-(r - b) * (t / n)) ≤ 1 := by rw [exp_le_one_iff]; nlinarith
  have hdt2 : √(t / n) ^ 2 = t / n := sq_sqrt hdt.le
  set h := σ * √(t / n) with hh
  have h0 : 0 < h := by positivity
  have hh2 : h ^ 2 = σ ^ 2 * (t / n) := by rw [hh, mul_pow, hdt2]
  have hh5 : h ^ 2 ≤ 1 / 5 := by rw [hh2]; exact hs
  have hhalf : h ≤ 1 / 2 := by nlinarith
  rw [← hh2] at hW
  have hMpos : 0 < M := by rw [hM]; exact exp_pos _
  obtain ⟨w, hw⟩ : ∃ w, W = 1 + w := ⟨W - 1, by ring⟩
  have hw0 : 0 < w := by
    have := add_one_lt_exp (by positivity : h ^ 2 ≠ 0)
    rw [← hW, hw] at this
    nlinarith
  have hw1 : w ≤ 6 / 5 * h ^ 2 := by
    have hq : |h ^ 2| ≤ 1 := by rw [abs_of_nonneg (sq_nonneg h)]; linarith
    have := (abs_le.1 (abs_exp_sub_one_sub_id_le hq)).2
    rw [← hW, hw] at this
    nlinarith [sq_nonneg h]
  have hw4 : w ≤ 1 / 4 := by linarith
  have hW1 : 1 < W := by linarith
  obtain ⟨g1, g2, g3⟩ := tian_aux hMpos hW1
  rw [← hu] at g3
  rw [← hd] at g1 g2
  have hupos : 0 < u := hMpos.trans g3
  have hsq : √(W * W + 2 * W - 3) ^ 2 = W * W + 2 * W - 3 := sq_sqrt (by nlinarith)
  have hsum : u / M + d / M = W * (W + 1) := by rw [hu, hd]; field_simp; ring
  have hprod : u / M * (d / M) = W ^ 2 := by
    have e : u / M * (d / M) = W ^ 2 / 4 * ((W + 1) ^ 2 - √(W * W + 2 * W - 3) ^ 2) := by rw [hu, hd]; field_simp; ring
    rw [e, hsq]; ring
  have hp' : p = (1 - d / M) / (u / M - d / M) := by
    have : u - d ≠ 0 := by linarith
    rw [hp, ← sub_div, div_div_eq_mul_div, sub_mul, one_mul, div_mul_cancel₀ _ hMpos.ne']
  obtain ⟨hd2, m1, m2, m3, m4⟩ := tian_moments hw hw0 hw4 ((div_lt_one hMpos).2 g2) ((one_lt_div hMpos).2 g3) hsum hprod hp'
  have hρ : 0 < u / M := div_pos hupos hMpos
  have hρ' : 0 < d / M := div_pos g1 hMpos
  have hq : 0 ≤ 1 - p := by linarith
  have hP : p * u / M = p * (u / M) := by ring
  have hQ : 1 - p * u / M = (1 - p) * (d / M) := by rw [hP]; linear_combination -m1
  have hP0 : 0 ≤ p * u / M := by rw [hP]; positivity
  have hP1 : p * u / M ≤ 1 := by
    have : 0 ≤ (1 - p) * (d / M) := by positivity
    linarith
  set μ := (b + σ ^ 2 / 2) * (t / n) with hμ
  have hμ' : μ = b * (t / n) + h ^ 2 / 2 := by rw [hμ, hh2]; ring
  have lu : log u = b * (t / n) + log (u / M) := by rw [log_div hupos.ne' hMpos.ne', hM, log_exp]; ring
  have ld : log d = b * (t / n) + log (d / M) := by rw [log_div g1.ne' hMpos.ne', hM, log_exp]; ring
  have hw2 : w ^ 2 ≤ 36 / 25 * h ^ 4 := by
    have := pow_le_pow_left₀ hw0.le hw1 2
    calc w ^ 2 ≤ (6 / 5 * h ^ 2) ^ 2 := this
      _ = _ := by ring
  -- first step
  have hM0 : p * u / M * |log u - μ| + (1 - p * u / M) * |log d - μ| ≤ 4 * h := by
    have := tian_first_dual hp0 hp1 h0 hhalf hw1 ((one_lt_div hMpos).2 g3) hd2 m1 m2
    rw [hQ, hP, lu, ld, hμ', show b * (t / n) + log (u / M) - (b * (t / n) + h ^ 2 / 2) = log (u / M) - h ^ 2 / 2 by ring,
      show b * (t / n) + log (d / M) - (b * (t / n) + h ^ 2 / 2) = log (d / M) - h ^ 2 / 2 by ring]
    exact this
  have hfr := hf.reflect
  have eG : opBS (r - b) (-b) σ (t / n) = opG (exp (-(r - b) * (t / n))) h (-μ) := by
    unfold opBS; rw [hμ]; congr 1; ring
  rw [eG, opL_reflect, opG_reflect, neg_neg]
  generalize -y = y
  have key := block_error (h := h) (μ := μ) (E0 := 5 * h) (A0 := 24 * h ^ 4) (A1 := 18 * h ^ 3)
    (A2 := 60 * h ^ 2) (A3 := 60 * h) (x := log u) (x' := log d) hfr (exp_pos (-(r - b) * (t / n))).le hD hP0 hP1
    (by positivity) (by positivity) (by positivity)
    (fun y => (first_stepF hfr hP0 hP1 h0.le y).trans (by linarith))
    (fun m hm y => by
      have hm' : (0 : ℝ) < m := by exact_mod_cast hm
      obtain ⟨e1, e2, e3⟩ := inv_powers h0 hm rfl
      set s := h * √(m : ℝ) with hsdef
      have hs0 : 0 < s := by positivity
      have key := one_step_weighted (f := smooth s fun y => f (-y)) (hfr.deriv1 hs0) (hfr.deriv2 hs0) (hfr.deriv3 hs0)
        (hfr.deriv4 hs0)
        (B0 := 1) (fun w => by rw [abs_of_nonneg ((hfr.smooth s).nonneg _)]; exact (hfr.smooth s).le_one _)
        (tian_combination_dual hfr hs0) hp0 hp1
        (y + m * μ + b * (t / n)) h hW hw hw0.le hw4 hρ hρ' m1 m2 m3 m4
      rw [exactF_succ hfr]
      unfold exactF
      rw [← hsdef]
      have eL : p * u / M * smooth s (fun y => f (-y)) (y + log u + m * μ)
          + (1 - p * u / M) * smooth s (fun y => f (-y)) (y + log d + m * μ)
          - ∫ z, smooth s (fun y => f (-y)) (y + μ + h * z + m * μ) ∂gaussianReal 0 1
          = p * (u / M) * smooth s (fun y => f (-y)) (y + m * μ + b * (t / n) + log (u / M))
            + (1 - p) * (d / M) * smooth s (fun y => f (-y)) (y + m * μ + b * (t / n) + log (d / M))
            - ∫ z, smooth s (fun y => f (-y)) (y + m * μ + b * (t / n) + (h * z + h ^ 2 / 2)) ∂gaussianReal 0 1 := by
        have a1 : y + log u + m * μ = y + m * μ + b * (t / n) + log (u / M) := by rw [lu]; ring
        have a2 : y + log d + m * μ = y + m * μ + b * (t / n) + log (d / M) := by rw [ld]; ring
        have a3 : (fun z => smooth s (fun y => f (-y)) (y + μ + h * z + m * μ))
            = fun z => smooth s (fun y => f (-y)) (y + m * μ + b * (t / n) + (h * z + h ^ 2 / 2)) := by
          funext z; congr 1; linear_combination hμ'
        rw [a1, a2, a3, hQ, hP]
      rw [eL]
      refine key.trans ?_
      rw [e1, e2, e3]
      have hB : 0 ≤ 2 + 3 / 2 * (1 / h * (1 / √m)) + 5 * (1 / h ^ 2 * (1 / m))
          + 5 * (1 / h ^ 3 * (1 / (m * √m))) := by positivity
      calc _ ≤ 25 / 3 * (36 / 25 * h ^ 4) * (2 + 3 / 2 * (1 / h * (1 / √m)) + 5 * (1 / h ^ 2 * (1 / m))
            + 5 * (1 / h ^ 3 * (1 / (m * √m)))) :=
            mul_le_mul_of_nonneg_right (mul_le_mul_of_nonneg_left hw2 (by norm_num)) hB
        _ = _ := by
            generalize 1 / √(m : ℝ) = q1
            generalize 1 / (m : ℝ) = q2
            generalize 1 / ((m : ℝ) * √m) = q3
            field_simp; ring) hi y
  refine key.trans ?_
  have e1 : σ * √t = h * √n := by rw [hh, mul_assoc, ← sqrt_mul (by positivity), div_mul_cancel₀ _ hn'.ne']
  rw [e1]
  exact tian_dual_arith h0 hhalf n

end Verif
