import Verif.Lemmas.WeakLimit
import Verif.Lemmas.TreeReal
import Verif.Spec.BlackScholes
import Mathlib.Analysis.SpecialFunctions.Trigonometric.DerivHyp

/-!
Limits of binomial lattices.
-/
namespace Verif
open MeasureTheory ProbabilityTheory Filter Topology

/-- Binomial weights. -/
noncomputable def binW (n : ℕ) (p : ℝ) (k : ℕ) : ℝ := (n.choose k : ℝ) * p ^ k * (1 - p) ^ (n - k)

theorem binW_nonneg {p : ℝ} (h0 : 0 ≤ p) (h1 : p ≤ 1) (n k : ℕ) : 0 ≤ binW n p k := by
  have : 0 ≤ 1 - p := by linarith
  unfold binW; positivity

theorem binW_gen (n : ℕ) (p x y : ℝ) (s : ℂ) :
    ∑ k ∈ Finset.range (n + 1), binW n p k • Complex.exp (s * ((k * x + (n - k) * y : ℝ) : ℂ))
      = (p * Complex.exp (s * x) + (1 - p) * Complex.exp (s * y)) ^ n := by
  rw [add_pow]
  refine Finset.sum_congr rfl fun k hk => ?_
  have hk : k ≤ n := by have := Finset.mem_range.1 hk; omega
  rw [mul_pow, mul_pow, ← Complex.exp_nat_mul, ← Complex.exp_nat_mul, binW, Complex.real_smul]
  have : Complex.exp (s * ((k * x + (n - k) * y : ℝ) : ℂ))
      = Complex.exp (k * (s * x)) * Complex.exp (((n - k : ℕ) : ℂ) * (s * y)) := by
    rw [← Complex.exp_add]
    congr 1
    push_cast [Nat.cast_sub hk]
    ring
  rw [this]
  push_cast
  ring

theorem binW_sum (n : ℕ) (p : ℝ) : ∑ k ∈ Finset.range (n + 1), binW n p k = 1 := by
  have := add_pow p (1 - p) n
  rw [add_sub_cancel, one_pow] at this
  rw [this]
  exact Finset.sum_congr rfl fun k _ => by rw [binW]; ring

/-- Law of the sum of `n` independent two-point steps. -/
noncomputable def binLaw (n : ℕ) (p x y : ℝ) : Measure ℝ :=
  disc (Finset.range (n + 1)) (binW n p) (fun k : ℕ => (k * x + (n - k) * y : ℝ))

theorem binLaw_prob (n : ℕ) {p : ℝ} (hp : 0 ≤ p ∧ p ≤ 1) (x y : ℝ) : IsProbabilityMeasure (binLaw n p x y) :=
  disc_prob _ (fun k _ => binW_nonneg hp.1 hp.2 n k) (binW_sum n p)

theorem integral_binLaw {n : ℕ} {p : ℝ} (hp : 0 ≤ p ∧ p ≤ 1) (x y : ℝ) (f : ℝ → ℝ) :
    ∫ z, f z ∂(binLaw n p x y) = ∑ k ∈ Finset.range (n + 1), binW n p k * f (k * x + (n - k) * y) := by
  rw [binLaw, integral_disc _ (fun k _ => binW_nonneg hp.1 hp.2 n k)]
  rfl

theorem charFun_binLaw {n : ℕ} {p : ℝ} (hp : 0 ≤ p ∧ p ≤ 1) (x y θ : ℝ) :
    charFun (binLaw n p x y) θ
      = (p * Complex.exp (θ * Complex.I * x) + (1 - p) * Complex.exp (θ * Complex.I * y)) ^ n := by
  rw [charFun_apply_real, binLaw, integral_disc _ (fun k _ => binW_nonneg hp.1 hp.2 n k), ← binW_gen]
  refine Finset.sum_congr rfl fun k _ => ?_
  congr 2
  ring

theorem mgf_binLaw {n : ℕ} {p : ℝ} (hp : 0 ≤ p ∧ p ≤ 1) (x y a : ℝ) :
    ∫ z, Real.exp (a * z) ∂(binLaw n p x y) = (p * Real.exp (a * x) + (1 - p) * Real.exp (a * y)) ^ n := by
  rw [integral_binLaw hp]
  have := binW_gen n p x y a
  rw [← Complex.ofReal_inj]
  push_cast
  rw [← this]
  refine Finset.sum_congr rfl fun k _ => ?_
  rw [Complex.real_smul]
  push_cast
  rfl

/-- Moment conditions on the steps of a sequence of lattices. -/
structure Steps (p x y : ℕ → ℝ) (m v : ℝ) : Prop where
  prob : ∀ᶠ n in atTop, 0 ≤ p n ∧ p n ≤ 1
  up : Tendsto x atTop (𝓝 0)
  down : Tendsto y atTop (𝓝 0)
  mean : Tendsto (fun n : ℕ => n * (p n * x n + (1 - p n) * y n)) atTop (𝓝 m)
  sq : Tendsto (fun n : ℕ => n * (p n * x n ^ 2 + (1 - p n) * y n ^ 2)) atTop (𝓝 v)

open Classical in
/-- A probability near `p`. -/
noncomputable def clip (p : ℝ) : ℝ := if 0 ≤ p ∧ p ≤ 1 then p else 0

theorem clip_prob (p : ℝ) : 0 ≤ clip p ∧ clip p ≤ 1 := by
  unfold clip; split
  · assumption
  · norm_num

theorem Steps.clip {p x y : ℕ → ℝ} {m v : ℝ} (h : Steps p x y m v) : Steps (fun n => clip (p n)) x y m v := by
  have e : ∀ᶠ n in atTop, Verif.clip (p n) = p n := by
    filter_upwards [h.prob] with n hn
    exact if_pos hn
  exact ⟨Eventually.of_forall fun n => clip_prob _, h.up, h.down,
    h.mean.congr' (by filter_upwards [e] with n hn; rw [hn]), h.sq.congr' (by filter_upwards [e] with n hn; rw [hn])⟩

/-- Laws of the lattice converge weakly to the Gaussian law. -/
theorem Steps.weak {p x y : ℕ → ℝ} {m : ℝ} {v : NNReal} (h : Steps p x y m v) (g : BoundedContinuousFunction ℝ ℝ) :
    Tendsto (fun n => ∫ z, g z ∂(binLaw n (Verif.clip (p n)) (x n) (y n))) atTop (𝓝 (∫ z, g z ∂(gaussianReal m v))) := by
  let μ : ℕ → ProbabilityMeasure ℝ := fun n => ⟨binLaw n (Verif.clip (p n)) (x n) (y n), binLaw_prob n (clip_prob _) _ _⟩
  let μ₀ : ProbabilityMeasure ℝ := ⟨gaussianReal m v, inferInstance⟩
  have hc := h.clip
  have key : Tendsto μ atTop (𝓝 μ₀) := by
    refine ProbabilityMeasure.tendsto_of_tendsto_charFun fun θ => ?_
    have := gen_tendsto hc.prob hc.up hc.down hc.mean hc.sq (θ * Complex.I)
    refine (this.congr fun n => ?_).trans (le_of_eq ?_)
    · exact (charFun_binLaw (clip_prob _) _ _ _).symm
    · congr 1
      show _ = charFun (gaussianReal m v) θ
      rw [charFun_gaussianReal]
      congr 1
      rw [mul_pow, Complex.I_sq]
      push_cast
      ring
  exact ProbabilityMeasure.tendsto_iff_forall_integral_tendsto.1 key g

theorem Steps.mgf {p x y : ℕ → ℝ} {m v : ℝ} (h : Steps p x y m v) (a : ℝ) :
    Tendsto (fun n => ∫ z, Real.exp (a * z) ∂(binLaw n (Verif.clip (p n)) (x n) (y n))) atTop
      (𝓝 (Real.exp (a * m + a ^ 2 * v / 2))) := by
  have hc := h.clip
  have := gen_tendsto hc.prob hc.up hc.down hc.mean hc.sq a
  simp only [mgf_binLaw (clip_prob _)]
  have h2 := (Complex.continuous_re.tendsto _).comp this
  refine (h2.congr fun n => ?_).trans (le_of_eq ?_)
  · simp only [Function.comp]
    rw [← Complex.ofReal_re ((Verif.clip (p n) * Real.exp (a * x n) + (1 - Verif.clip (p n)) * Real.exp (a * y n)) ^ n)]
    push_cast
    rfl
  · congr 1
    rw [← Complex.ofReal_re (Real.exp (a * m + a ^ 2 * v / 2))]
    push_cast
    rfl

theorem integrable_exp_gauss (m : ℝ) (v : NNReal) (a : ℝ) : Integrable (fun z => Real.exp (a * z)) (gaussianReal m v) :=
  integrable_exp_mul_gaussianReal a

/-- Lattice expectations of a continuous function of exponential growth converge. -/
theorem Steps.expect {p x y : ℕ → ℝ} {m : ℝ} {v : NNReal} (h : Steps p x y m v) {f : ℝ → ℝ} (hc : Continuous f)
    (h0 : ∀ z, 0 ≤ f z) {A B : ℝ} (hA : 0 ≤ A) (hB : 0 ≤ B) (hf : ∀ z, f z ≤ A + B * Real.exp z) :
    Tendsto (fun n => ∑ k ∈ Finset.range (n + 1), binW n (p n) k * f (k * x n + (n - k) * y n)) atTop
      (𝓝 (∫ z, f z ∂(gaussianReal m v))) := by
  have hsq : ∀ z, f z ^ 2 ≤ 2 * A ^ 2 + 2 * B ^ 2 * Real.exp (2 * z) := by
    intro z
    have e : Real.exp (2 * z) = Real.exp z ^ 2 := by rw [← Real.exp_nat_mul]; norm_num
    have hz := Real.exp_pos z
    rw [e]
    nlinarith [hf z, h0 z, sq_nonneg (A - B * Real.exp z), mul_nonneg hB hz.le]
  have hb := ((h.mgf 2).const_mul (2 * B ^ 2)).const_add (2 * A ^ 2)
  have hint : Integrable f (gaussianReal m v) := by
    refine ((integrable_const A).add ((integrable_exp_gauss m v 1).const_mul B)).mono' hc.aestronglyMeasurable ?_
    filter_upwards with z
    rw [Real.norm_of_nonneg (h0 z)]
    simpa using hf z
  have hint2 : Integrable (fun z => f z ^ 2) (gaussianReal m v) := by
    refine ((integrable_const (2 * A ^ 2)).add ((integrable_exp_gauss m v 2).const_mul (2 * B ^ 2))).mono'
      (hc.pow 2).aestronglyMeasurable ?_
    filter_upwards with z
    rw [Real.norm_of_nonneg (sq_nonneg _)]
    simpa using hsq z
  haveI : ∀ n, IsProbabilityMeasure (binLaw n (Verif.clip (p n)) (x n) (y n)) := fun n => binLaw_prob n (clip_prob _) _ _
  have hdi : ∀ n (g : ℝ → ℝ), Integrable g (binLaw n (Verif.clip (p n)) (x n) (y n)) := fun n g => disc_integrable _ _ _ _
  have key := tendsto_integral_of_sq h.weak hc h0
    (C := 2 * A ^ 2 + 2 * B ^ 2 * Real.exp (2 * m + 2 ^ 2 * v / 2) + 1) (by
      filter_upwards [hb.eventually (eventually_le_nhds (lt_add_one _))] with n hn
      refine ⟨disc_integrable _ _ _ _, disc_integrable _ _ _ _, le_trans ?_ hn⟩
      calc ∫ z, f z ^ 2 ∂(binLaw n (Verif.clip (p n)) (x n) (y n))
          ≤ ∫ z, (2 * A ^ 2 + 2 * B ^ 2 * Real.exp (2 * z)) ∂(binLaw n (Verif.clip (p n)) (x n) (y n)) :=
            integral_mono (disc_integrable _ _ _ _) (disc_integrable _ _ _ _) hsq
        _ = _ := by
            rw [integral_add (hdi n _) (hdi n _), integral_const, integral_const_mul]
            simp) hint hint2
  refine key.congr' ?_
  filter_upwards [h.prob] with n hn
  rw [integral_binLaw (clip_prob _), Verif.clip, if_pos hn]

/-- Change of variables to the standard normal. -/
theorem integral_gauss_std (m c : ℝ) (v : NNReal) (hv : (v : ℝ) = c ^ 2) (f : ℝ → ℝ) :
    ∫ z, f z ∂(gaussianReal m v) = ∫ z, f (m + c * z) ∂(gaussianReal 0 1) := by
  have e : gaussianReal m v = (gaussianReal 0 1).map (fun z => m + c * z) := by
    rw [show (fun z : ℝ => m + c * z) = (fun z => m + z) ∘ (fun z => c * z) from rfl,
      ← Measure.map_map (by fun_prop) (by fun_prop), gaussianReal_map_const_mul, gaussianReal_map_const_add]
    congr 1
    · simp
    · apply NNReal.eq; simp [hv]
  rw [e]
  rcases eq_or_ne c 0 with rfl | hc
  · simp
  · exact integral_map_equiv ((Homeomorph.mulLeft₀ c hc).trans (Homeomorph.addLeft m)).toMeasurableEquiv f


/-- Third-order remainders vanish in the limit. -/
theorem rem_tendsto {p a b e f : ℕ → ℝ} {v C : ℝ} (hp : ∀ᶠ n in atTop, 0 ≤ p n ∧ p n ≤ 1)
    (ha : Tendsto a atTop (𝓝 0)) (hb : Tendsto b atTop (𝓝 0))
    (hv : Tendsto (fun n : ℕ => n * (p n * a n ^ 2 + (1 - p n) * b n ^ 2)) atTop (𝓝 v))
    (he : ∀ᶠ n in atTop, |e n| ≤ C * |a n| ^ 3) (hf : ∀ᶠ n in atTop, |f n| ≤ C * |b n| ^ 3) (hC : 0 ≤ C) :
    Tendsto (fun n : ℕ => n * (p n * e n + (1 - p n) * f n)) atTop (𝓝 0) := by
  have hm : Tendsto (fun n => C * (|a n| + |b n|) * (n * (p n * a n ^ 2 + (1 - p n) * b n ^ 2))) atTop (𝓝 0) := by
    have := ((ha.abs.add hb.abs).const_mul C).mul hv
    simpa using this
  refine squeeze_zero_norm' ?_ hm
  filter_upwards [hp, he, hf] with n hn h1 h2
  have hq : 0 ≤ 1 - p n := by linarith
  have hN : (0 : ℝ) ≤ n := Nat.cast_nonneg n
  rw [Real.norm_eq_abs, abs_mul, abs_of_nonneg hN]
  have e1 : |p n * e n + (1 - p n) * f n| ≤ p n * (C * |a n| ^ 3) + (1 - p n) * (C * |b n| ^ 3) := by
    refine (abs_add_le _ _).trans ?_
    rw [abs_mul, abs_mul, abs_of_nonneg hn.1, abs_of_nonneg hq]
    gcongr <;> exact hn.1
  have e2 : p n * (C * |a n| ^ 3) + (1 - p n) * (C * |b n| ^ 3)
      ≤ C * (|a n| + |b n|) * (p n * a n ^ 2 + (1 - p n) * b n ^ 2) := by
    rw [← sq_abs (a n), ← sq_abs (b n)]
    have x0 := abs_nonneg (a n)
    have y0 := abs_nonneg (b n)
    have : 0 ≤ C * (p n * |a n| ^ 2 * |b n| + (1 - p n) * |b n| ^ 2 * |a n|) := by
      have := hn.1
      positivity
    nlinarith
  calc (n : ℝ) * |p n * e n + (1 - p n) * f n|
      ≤ n * (C * (|a n| + |b n|) * (p n * a n ^ 2 + (1 - p n) * b n ^ 2)) := by
        gcongr; exact e1.trans e2
    _ = _ := by ring

theorem log_rem {a : ℝ} (h : |a| ≤ 1 / 2) :
    |Real.log (1 + a) - (a - a ^ 2 / 2)| ≤ 8 * |a| ^ 3 ∧ |Real.log (1 + a) ^ 2 - a ^ 2| ≤ 8 * |a| ^ 3 := by
  have h0 := abs_nonneg a
  have h1 := Real.abs_log_sub_add_sum_range_le (x := -a) (by rw [abs_neg]; linarith) 2
  rw [abs_neg, sub_neg_eq_add] at h1
  have h2 : |a| ^ (2 + 1) / (1 - |a|) ≤ 2 * |a| ^ 3 := by
    rw [div_le_iff₀ (by linarith)]
    have h3 : 0 ≤ |a| ^ 3 := by positivity
    have e : |a| ^ (2 + 1) = |a| ^ 3 := rfl
    rw [e]
    generalize |a| ^ 3 = w at *
    nlinarith [mul_nonneg h3 (by linarith : 0 ≤ 1 / 2 - |a|)]
  have h3 : |Real.log (1 + a) - (a - a ^ 2 / 2)| ≤ 2 * |a| ^ 3 := by
    refine le_trans (le_of_eq ?_) (h1.trans h2)
    congr 1
    simp [Finset.sum_range_succ]
    ring
  have h3' : 0 ≤ |a| ^ 3 := by positivity
  refine ⟨by linarith, ?_⟩
  have h4 : |Real.log (1 + a) - a| ≤ 2 * |a| ^ 2 := by
    have : |Real.log (1 + a) - a| ≤ |Real.log (1 + a) - (a - a ^ 2 / 2)| + |a ^ 2 / 2| := by
      refine le_trans (le_of_eq ?_) (abs_sub _ _)
      congr 1; ring
    rw [abs_of_nonneg (by positivity : 0 ≤ a ^ 2 / 2)] at this
    have e2 : a ^ 2 = |a| ^ 2 := (sq_abs a).symm
    have e3 : |a| ^ 3 = |a| * |a| ^ 2 := by ring
    have := mul_nonneg (sq_nonneg |a|) (by linarith : 0 ≤ 1 / 2 - |a|)
    nlinarith [sq_nonneg |a|]
  have h5 : |Real.log (1 + a) + a| ≤ 4 * |a| := by
    have : |Real.log (1 + a) + a| ≤ |Real.log (1 + a) - a| + |2 * a| := by
      refine le_trans (le_of_eq ?_) (abs_add_le _ _)
      congr 1; ring
    rw [abs_mul, abs_two] at this
    nlinarith
  rw [sq_sub_sq, abs_mul]
  calc |Real.log (1 + a) + a| * |Real.log (1 + a) - a| ≤ (4 * |a|) * (2 * |a| ^ 2) := by gcongr
    _ = _ := by ring

/-- Moment conditions for the log returns from those for the simple returns. -/
theorem Steps.of_returns {p u d : ℕ → ℝ} {m v : ℝ} (hp : ∀ᶠ n in atTop, 0 ≤ p n ∧ p n ≤ 1)
    (hu : Tendsto u atTop (𝓝 1)) (hd : Tendsto d atTop (𝓝 1))
    (hm : Tendsto (fun n : ℕ => n * (p n * u n + (1 - p n) * d n - 1)) atTop (𝓝 m))
    (hv : Tendsto (fun n : ℕ => n * (p n * (u n - 1) ^ 2 + (1 - p n) * (d n - 1) ^ 2)) atTop (𝓝 v)) :
    Steps p (fun n => Real.log (u n)) (fun n => Real.log (d n)) (m - v / 2) v := by
  have ha : Tendsto (fun n => u n - 1) atTop (𝓝 0) := by simpa using hu.sub_const 1
  have hb : Tendsto (fun n => d n - 1) atTop (𝓝 0) := by simpa using hd.sub_const 1
  have sm : ∀ {a : ℕ → ℝ}, Tendsto a atTop (𝓝 0) → ∀ᶠ n in atTop, |a n| ≤ 1 / 2 := by
    intro a h
    have := h.abs
    rw [abs_zero] at this
    exact this.eventually (eventually_le_nhds (by norm_num))
  have ra := sm ha
  have rb := sm hb
  refine ⟨hp, ?_, ?_, ?_, ?_⟩
  · simpa using hu.log one_ne_zero
  · simpa using hd.log one_ne_zero
  · have r := rem_tendsto (C := 8) (e := fun n => Real.log (u n) - ((u n - 1) - (u n - 1) ^ 2 / 2))
      (f := fun n => Real.log (d n) - ((d n - 1) - (d n - 1) ^ 2 / 2)) hp ha hb hv
      (by filter_upwards [ra] with n hn; simpa using (log_rem hn).1)
      (by filter_upwards [rb] with n hn; simpa using (log_rem hn).1) (by norm_num)
    have := (r.add hm).sub (hv.div_const 2)
    rw [zero_add] at this
    refine this.congr fun n => ?_
    ring
  · have r := rem_tendsto (C := 8) (e := fun n => Real.log (u n) ^ 2 - (u n - 1) ^ 2)
      (f := fun n => Real.log (d n) ^ 2 - (d n - 1) ^ 2) hp ha hb hv
      (by filter_upwards [ra] with n hn; simpa using (log_rem hn).2)
      (by filter_upwards [rb] with n hn; simpa using (log_rem hn).2) (by norm_num)
    have := r.add hv
    rw [zero_add] at this
    refine this.congr fun n => ?_
    ring

/-- First-order behaviour of the exponential along a sequence. -/
theorem exp_first {c s : ℕ → ℝ} {L : ℝ} (hs : Tendsto s atTop (𝓝 0)) (hc : Tendsto (fun n => c n * s n) atTop (𝓝 L)) :
    Tendsto (fun n => c n * (Real.exp (s n) - 1)) atTop (𝓝 L) := by
  have h1 : ContinuousAt (dslope Real.exp 0) 0 := continuousAt_dslope_same.2 Real.differentiableAt_exp
  have h2 : Tendsto (fun n => dslope Real.exp 0 (s n)) atTop (𝓝 1) := by
    have := h1.tendsto.comp hs
    simpa [dslope_same, Function.comp_def] using this
  have := hc.mul h2
  rw [mul_one] at this
  refine this.congr fun n => ?_
  have := sub_smul_dslope Real.exp 0 (s n)
  simp only [sub_zero, smul_eq_mul, Real.exp_zero] at this
  rw [← this]; ring

theorem dt_zero (t : ℝ) : Tendsto (fun n : ℕ => t / n) atTop (𝓝 0) := tendsto_const_div_atTop_nhds_zero_nat t

theorem n_dt (t : ℝ) : ∀ᶠ n : ℕ in atTop, (n : ℝ) * (t / n) = t := by
  filter_upwards [eventually_gt_atTop 0] with n hn
  have : (n : ℝ) ≠ 0 := by exact_mod_cast hn.ne'
  field_simp

/-- `n (e^{c t/n} - 1) → c t`. -/
theorem n_exp (c t : ℝ) : Tendsto (fun n : ℕ => (n : ℝ) * (Real.exp (c * (t / n)) - 1)) atTop (𝓝 (c * t)) := by
  refine exp_first (by simpa using (dt_zero t).const_mul c) (tendsto_const_nhds.congr' ?_)
  filter_upwards [n_dt t] with n hn
  rw [mul_left_comm, hn]

theorem sqrt_dt (t : ℝ) : Tendsto (fun n : ℕ => √(t / n)) atTop (𝓝 0) := by
  have := (Real.continuous_sqrt.tendsto 0).comp (dt_zero t)
  rwa [Real.sqrt_zero] at this

open _root_.Verif.Tree in
/-- The moment conditions hold on the three lattices of the code. -/
theorem steps_factors (c : Cls) (o : ℕ → Opt) {t b σ : ℝ} (ht : 0 < t) (hσ : 0 < σ)
    (ho : ∀ n, (o n).t = t ∧ (o n).b = b ∧ (o n).sigma = σ ∧ (o n).n = n) :
    Steps (fun n => (factors c (o n)).p) (fun n => Real.log (factors c (o n)).u)
      (fun n => Real.log (factors c (o n)).d) ((b - σ ^ 2 / 2) * t) (σ ^ 2 * t) := by
  have hval : ∀ᶠ n in atTop, TreeValid (o n) := by
    filter_upwards [eventually_gt_atTop 0] with n hn
    obtain ⟨h1, h2, h3, h4⟩ := ho n
    exact ⟨by rwa [h1], by rwa [h3], by rwa [h4]⟩
  have hM : Tendsto (fun n : ℕ => Real.exp (b * (t / n))) atTop (𝓝 1) := by
    have := (Real.continuous_exp.tendsto _).comp ((dt_zero t).const_mul b)
    simpa [Function.comp_def] using this
  have hV : Tendsto (fun n : ℕ => Real.exp (σ ^ 2 * (t / n))) atTop (𝓝 1) := by
    have := (Real.continuous_exp.tendsto _).comp ((dt_zero t).const_mul (σ ^ 2))
    simpa [Function.comp_def] using this
  have hs : Tendsto (fun n : ℕ => σ * √(t / n)) atTop (𝓝 0) := by simpa using (sqrt_dt t).const_mul σ
  have hU : Tendsto (fun n : ℕ => Real.exp (σ * √(t / n))) atTop (𝓝 1) := by
    have := (Real.continuous_exp.tendsto _).comp hs
    simpa [Function.comp_def] using this
  rw [show (b - σ ^ 2 / 2) * t = b * t - σ ^ 2 * t / 2 by ring]
  cases c with
  | crr =>
    refine Steps.of_returns ?_ ?_ ?_ ?_ ?_
    · have : ∀ᶠ n : ℕ in atTop, |b| * √(t / n) ≤ σ := by
        have h := (sqrt_dt t).const_mul |b|
        rw [mul_zero] at h
        exact h.eventually (eventually_le_nhds hσ)
      filter_upwards [hval, this] with n hn hb
      refine crr_prob hn ?_
      obtain ⟨h1, h2, h3, h4⟩ := ho n
      rw [h1, h2, h3, h4]; exact hb
    · refine hU.congr fun n => ?_
      obtain ⟨h1, h2, h3, h4⟩ := ho n
      simp only [factors, h1, h3, h4]
    · have := hU.inv₀ one_ne_zero
      rw [inv_one] at this
      refine this.congr fun n => ?_
      obtain ⟨h1, h2, h3, h4⟩ := ho n
      simp only [factors, h1, h3, h4, one_div]
    · refine (n_exp b t).congr' ?_
      filter_upwards [hval] with n hn
      rw [(good_crr hn).mean]
      obtain ⟨h1, h2, h3, h4⟩ := ho n
      rw [h1, h2, h4]
    · have h1 : Tendsto (fun n : ℕ => √(n : ℝ) * (Real.exp (σ * √(t / n)) - 1)) atTop (𝓝 (σ * √t)) := by
        refine exp_first hs (tendsto_const_nhds.congr' ?_)
        filter_upwards [n_dt t] with n hn
        rw [mul_left_comm, ← Real.sqrt_mul (Nat.cast_nonneg n), hn]
      have h2 := (hM.mul (hU.inv₀ one_ne_zero)).mul (h1.pow 2)
      rw [inv_one, mul_one, one_mul, mul_pow, Real.sq_sqrt ht.le] at h2
      refine h2.congr' ?_
      filter_upwards [hval] with n hn
      have hg := good_crr hn
      have hmean := hg.mean
      obtain ⟨e1, e2, e3, e4⟩ := ho n
      have hU0 : (factors .crr (o n)).u = Real.exp (σ * √(t / n)) := by simp only [factors, e1, e3, e4]
      have hD0 : (factors .crr (o n)).d = (Real.exp (σ * √(t / n)))⁻¹ := by simp only [factors, e1, e3, e4, one_div]
      rw [e1, e2, e4, hU0, hD0] at hmean
      rw [hU0, hD0, mul_pow, Real.sq_sqrt (Nat.cast_nonneg n)]
      have hne := (Real.exp_pos (σ * √(t / n))).ne'
      rw [← hmean]
      field_simp
      ring
  | jr =>
    have hx : ∀ n, Real.log (factors .jr (o n)).u = (b - σ ^ 2 / 2) * (t / n) + σ * √(t / n) := by
      intro n
      obtain ⟨e1, e2, e3, e4⟩ := ho n
      simp only [factors, e1, e2, e3, e4, Real.log_exp]
    have hy : ∀ n, Real.log (factors .jr (o n)).d = (b - σ ^ 2 / 2) * (t / n) - σ * √(t / n) := by
      intro n
      obtain ⟨e1, e2, e3, e4⟩ := ho n
      simp only [factors, e1, e2, e3, e4, Real.log_exp]
    have hp : ∀ n, (factors .jr (o n)).p = 1 / 2 := fun _ => rfl
    have hμ : Tendsto (fun n : ℕ => (b - σ ^ 2 / 2) * (t / n)) atTop (𝓝 0) := by
      simpa using (dt_zero t).const_mul (b - σ ^ 2 / 2)
    simp only [hx, hy, hp]
    refine ⟨Eventually.of_forall fun _ => by norm_num, by simpa using hμ.add hs, by simpa using hμ.sub hs, ?_, ?_⟩
    · refine tendsto_const_nhds.congr' ?_
      filter_upwards [n_dt t] with n hn
      linear_combination (b - σ ^ 2 / 2) * (-hn)
    · have : Tendsto (fun n : ℕ => (b - σ ^ 2 / 2) * t * ((b - σ ^ 2 / 2) * (t / n)) + σ ^ 2 * t) atTop
          (𝓝 ((b - σ ^ 2 / 2) * t * 0 + σ ^ 2 * t)) := (hμ.const_mul _).add_const _
      rw [mul_zero, zero_add] at this
      refine this.congr' ?_
      filter_upwards [n_dt t] with n hn
      have hq : √(t / n) ^ 2 = t / n := Real.sq_sqrt (div_nonneg ht.le (Nat.cast_nonneg n))
      linear_combination (-(b - σ ^ 2 / 2) ^ 2 * (t / n) - σ ^ 2) * hn - n * σ ^ 2 * hq
  | tian =>
    have hQ : Tendsto (fun n : ℕ => √(Real.exp (σ ^ 2 * (t / n)) * Real.exp (σ ^ 2 * (t / n))
        + 2 * Real.exp (σ ^ 2 * (t / n)) - 3)) atTop (𝓝 0) := by
      have := (Real.continuous_sqrt.tendsto _).comp (((hV.mul hV).add (hV.const_mul 2)).sub_const 3)
      norm_num at this
      exact this
    have hMV : Tendsto (fun n : ℕ => Real.exp (b * (t / n)) * Real.exp (σ ^ 2 * (t / n)) / 2) atTop (𝓝 (1 / 2)) := by
      simpa using (hM.mul hV).div_const 2
    refine Steps.of_returns ?_ ?_ ?_ ?_ ?_
    · filter_upwards [hval] with n hn
      exact ⟨(tian_prob hn).1.le, (tian_prob hn).2.le⟩
    · have := hMV.mul ((hV.add_const 1).add hQ)
      norm_num at this
      refine this.congr fun n => ?_
      obtain ⟨e1, e2, e3, e4⟩ := ho n
      simp only [factors, e1, e2, e3, e4]
    · have := hMV.mul ((hV.add_const 1).sub hQ)
      norm_num at this
      refine this.congr fun n => ?_
      obtain ⟨e1, e2, e3, e4⟩ := ho n
      simp only [factors, e1, e2, e3, e4]
    · refine (n_exp b t).congr' ?_
      filter_upwards [hval] with n hn
      rw [(good_tian hn).mean]
      obtain ⟨h1, h2, h3, h4⟩ := ho n
      rw [h1, h2, h4]
    · have h2 := (n_exp (2 * b + σ ^ 2) t).sub ((n_exp b t).const_mul 2)
      rw [show (2 * b + σ ^ 2) * t - 2 * (b * t) = σ ^ 2 * t by ring] at h2
      refine h2.congr' ?_
      filter_upwards [hval] with n hn
      have hmean := (good_tian hn).mean
      obtain ⟨e1, e2, e3, e4⟩ := ho n
      have hV1 : 1 < Real.exp (σ ^ 2 * (t / n)) :=
        Real.one_lt_exp_iff.2 (mul_pos (pow_pos hσ 2) (by have := hn.dt; rwa [e1, e4] at this))
      have hsq : √(Real.exp (σ ^ 2 * (t / n)) * Real.exp (σ ^ 2 * (t / n)) + 2 * Real.exp (σ ^ 2 * (t / n)) - 3) ^ 2
          = Real.exp (σ ^ 2 * (t / n)) * Real.exp (σ ^ 2 * (t / n)) + 2 * Real.exp (σ ^ 2 * (t / n)) - 3 :=
        Real.sq_sqrt (by nlinarith)
      have hsum : (factors .tian (o n)).u + (factors .tian (o n)).d
          = Real.exp (b * (t / n)) * Real.exp (σ ^ 2 * (t / n)) * (Real.exp (σ ^ 2 * (t / n)) + 1) := by
        simp only [factors, e1, e2, e3, e4]; ring
      have hprod : (factors .tian (o n)).u * (factors .tian (o n)).d
          = (Real.exp (b * (t / n)) * Real.exp (σ ^ 2 * (t / n))) ^ 2 := by
        simp only [factors, e1, e2, e3, e4]
        linear_combination (-(Real.exp (b * (t / n)) * Real.exp (σ ^ 2 * (t / n)) / 2) ^ 2) * hsq
      rw [e1, e2, e4] at hmean
      have hE : Real.exp ((2 * b + σ ^ 2) * (t / n)) = Real.exp (b * (t / n)) ^ 2 * Real.exp (σ ^ 2 * (t / n)) := by
        rw [← Real.exp_nat_mul, ← Real.exp_add]; congr 1; push_cast; ring
      rw [hE]
      generalize (factors .tian (o n)).u = u at *
      generalize (factors .tian (o n)).d = d at *
      generalize (factors .tian (o n)).p = p at *
      generalize Real.exp (b * (t / n)) = M at *
      generalize Real.exp (σ ^ 2 * (t / n)) = V at *
      linear_combination (n : ℝ) * (-(u + d) * hmean - M * hsum + hprod + 2 * hmean)

end Verif
