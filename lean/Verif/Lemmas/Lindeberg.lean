import Verif.Lemmas.SmoothPut
import Verif.Lemmas.TreeReal
import Mathlib.Analysis.SpecialFunctions.Trigonometric.DerivHyp

/-!
Distance of a binomial lattice from the Gaussian expectation, one step at a time (Lindeberg's replacement argument).
-/
namespace Verif
open Real MeasureTheory ProbabilityTheory Spec Set _root_.Verif.Tree

theorem integral_abs_gauss_le : ∫ z, |z| ∂gaussianReal 0 1 ≤ 1 := by
  have h2 := HN.integrable_pow_gauss 2
  have h := integral_mono (μ := gaussianReal 0 1) (f := fun z => |z|) (g := fun z : ℝ => (1 + z ^ 2) / 2)
    (by simpa using (HN.integrable_pow_gauss 1).norm) (((integrable_const 1).add h2).div_const 2) (fun z => by
      simp only
      nlinarith [sq_nonneg (|z| - 1), sq_abs z])
  rw [integral_div, integral_add (integrable_const _) h2, HN.moment_two] at h
  simpa using h

/-- One step: expectation of a smooth function over a two-point law and over a Gaussian law. -/
theorem one_step {f f1 f2 f3 f4 : ℝ → ℝ} {B0 B1 B2 B3 B4 : ℝ} (h1 : ∀ w, HasDerivAt f (f1 w) w)
    (h2 : ∀ w, HasDerivAt f1 (f2 w) w) (h3 : ∀ w, HasDerivAt f2 (f3 w) w) (h4 : ∀ w, HasDerivAt f3 (f4 w) w)
    (hB0 : ∀ w, |f w| ≤ B0) (hB1 : ∀ w, |f1 w| ≤ B1) (hB2 : ∀ w, |f2 w| ≤ B2) (hB3 : ∀ w, |f3 w| ≤ B3)
    (hB4 : ∀ w, |f4 w| ≤ B4) {p : ℝ} (hp0 : 0 ≤ p) (hp1 : p ≤ 1) (c a a' h : ℝ) :
    |p * f (c + a) + (1 - p) * f (c + a') - ∫ z, f (c + h * z) ∂gaussianReal 0 1|
      ≤ |p * a + (1 - p) * a'| * B1 + |p * a ^ 2 + (1 - p) * a' ^ 2 - h ^ 2| / 2 * B2
        + |p * a ^ 3 + (1 - p) * a' ^ 3| / 6 * B3 + (p * a ^ 4 + (1 - p) * a' ^ 4 + 3 * h ^ 4) / 24 * B4 := by
  have tay : ∀ u, |f (c + u) - (f c + f1 c * u + f2 c * u ^ 2 / 2 + f3 c * u ^ 3 / 6)| ≤ B4 * u ^ 4 / 24 := by
    intro u
    have := taylor4 (c := c) (u := c + u) (fun w _ => h1 w) (fun w _ => h2 w) (fun w _ => h3 w) (fun w _ => h4 w)
      (fun w _ => hB4 w)
    simpa using this
  have hcont : Continuous f := continuous_iff_continuousAt.2 fun w => (h1 w).continuousAt
  have hint : Integrable (fun z => f (c + h * z)) (gaussianReal 0 1) :=
    Integrable.mono' (integrable_const B0) (by fun_prop) (.of_forall fun z => hB0 _)
  have p1 := HN.integrable_pow_gauss 1
  have p2 := HN.integrable_pow_gauss 2
  have p3 := HN.integrable_pow_gauss 3
  have p4 := HN.integrable_pow_gauss 4
  have q1 : Integrable (fun z : ℝ => f c + f1 c * h * z ^ 1) (gaussianReal 0 1) :=
    (integrable_const _).add (p1.const_mul _)
  have q2 : Integrable (fun z : ℝ => f c + f1 c * h * z ^ 1 + f2 c * h ^ 2 / 2 * z ^ 2) (gaussianReal 0 1) :=
    q1.add (p2.const_mul _)
  have hpoly : Integrable (fun z : ℝ => f c + f1 c * h * z ^ 1 + f2 c * h ^ 2 / 2 * z ^ 2 + f3 c * h ^ 3 / 6 * z ^ 3)
      (gaussianReal 0 1) := q2.add (p3.const_mul _)
  have epoly : ∫ z : ℝ, (f c + f1 c * h * z ^ 1 + f2 c * h ^ 2 / 2 * z ^ 2 + f3 c * h ^ 3 / 6 * z ^ 3) ∂gaussianReal 0 1
      = f c + f2 c * h ^ 2 / 2 := by
    rw [integral_add q2 (p3.const_mul _), integral_add q1 (p2.const_mul _),
      integral_add (integrable_const _) (p1.const_mul _), integral_const_mul, integral_const_mul, integral_const_mul,
      HN.moment_one, HN.moment_two, HN.moment_three]
    simp
  have hG : |(∫ z, f (c + h * z) ∂gaussianReal 0 1) - (f c + f2 c * h ^ 2 / 2)| ≤ 3 * h ^ 4 / 24 * B4 := by
    rw [← epoly, ← integral_sub hint hpoly]
    have hm := norm_integral_le_of_norm_le (μ := gaussianReal 0 1)
      (f := fun z => f (c + h * z) - (f c + f1 c * h * z ^ 1 + f2 c * h ^ 2 / 2 * z ^ 2 + f3 c * h ^ 3 / 6 * z ^ 3))
      (g := fun z : ℝ => B4 * h ^ 4 / 24 * z ^ 4) (p4.const_mul _) (.of_forall fun z => by
        have := tay (h * z)
        rw [norm_eq_abs]
        calc _ = |f (c + h * z) - (f c + f1 c * (h * z) + f2 c * (h * z) ^ 2 / 2 + f3 c * (h * z) ^ 3 / 6)| := by
              congr 1; ring
          _ ≤ _ := this
          _ = _ := by ring)
    rw [integral_const_mul, HN.moment_four, norm_eq_abs] at hm
    linarith
  have hq : 0 ≤ 1 - p := by linarith
  have ha := tay a
  have ha' := tay a'
  have hL : |p * f (c + a) + (1 - p) * f (c + a') - (f c + f1 c * (p * a + (1 - p) * a')
      + f2 c * (p * a ^ 2 + (1 - p) * a' ^ 2) / 2 + f3 c * (p * a ^ 3 + (1 - p) * a' ^ 3) / 6)|
      ≤ (p * a ^ 4 + (1 - p) * a' ^ 4) / 24 * B4 := by
    calc _ = |p * (f (c + a) - (f c + f1 c * a + f2 c * a ^ 2 / 2 + f3 c * a ^ 3 / 6))
          + (1 - p) * (f (c + a') - (f c + f1 c * a' + f2 c * a' ^ 2 / 2 + f3 c * a' ^ 3 / 6))| := by congr 1; ring
      _ ≤ p * (B4 * a ^ 4 / 24) + (1 - p) * (B4 * a' ^ 4 / 24) := by
          refine (abs_add_le _ _).trans (add_le_add ?_ ?_) <;> rw [abs_mul]
          · rw [abs_of_nonneg hp0]; exact mul_le_mul_of_nonneg_left ha hp0
          · rw [abs_of_nonneg hq]; exact mul_le_mul_of_nonneg_left ha' hq
      _ = _ := by ring
  set m1 := p * a + (1 - p) * a'
  set m2 := p * a ^ 2 + (1 - p) * a' ^ 2
  set m3 := p * a ^ 3 + (1 - p) * a' ^ 3
  have t1 : |f1 c * m1| ≤ |m1| * B1 := by
    rw [abs_mul, mul_comm]; exact mul_le_mul_of_nonneg_left (hB1 c) (abs_nonneg _)
  have t2 : |f2 c * ((m2 - h ^ 2) / 2)| ≤ |m2 - h ^ 2| / 2 * B2 := by
    rw [abs_mul, mul_comm, abs_div, abs_two]; exact mul_le_mul_of_nonneg_left (hB2 c) (by positivity)
  have t3 : |f3 c * (m3 / 6)| ≤ |m3| / 6 * B3 := by
    rw [abs_mul, mul_comm, abs_div, show |(6 : ℝ)| = 6 by norm_num]
    exact mul_le_mul_of_nonneg_left (hB3 c) (by positivity)
  rw [abs_le] at *
  constructor <;> linarith [hL.1, hL.2, hG.1, hG.2, t1.1, t1.2, t2.1, t2.2, t3.1, t3.2]

/-- The payoff of the put in the log price is Lipschitz with constant one. -/
theorem put_lip (x y : ℝ) : |max (1 - exp x) 0 - max (1 - exp y) 0| ≤ |x - y| := by
  wlog h : x ≤ y generalizing x y
  · rw [abs_sub_comm, abs_sub_comm x]; exact this y x (by linarith)
  rw [abs_of_nonpos (by linarith : x - y ≤ 0)]
  have hxy := exp_le_exp.2 h
  have h0 : 0 ≤ max (1 - exp x) 0 - max (1 - exp y) 0 := sub_nonneg.2 (max_le_max (by linarith) le_rfl)
  rw [abs_of_nonneg h0]
  rcases le_total 0 x with hx | hx
  · have := one_le_exp hx
    have := one_le_exp (hx.trans h)
    rw [max_eq_right (by linarith), max_eq_right (by linarith)]; linarith
  · have e : exp (x - y) * exp y = exp x := by rw [← exp_add]; ring_nf
    have h1 := add_one_le_exp (x - y)
    have hy := exp_pos y
    rw [max_eq_left (by linarith [exp_le_one_iff.2 hx] : 0 ≤ 1 - exp x)]
    rcases le_total y 0 with hy0 | hy0
    · have := exp_le_one_iff.2 hy0
      rw [max_eq_left (by linarith)]
      nlinarith
    · have := one_le_exp hy0
      rw [max_eq_right (by linarith)]
      have := add_one_le_exp x
      linarith

/-- The first step back from maturity. -/
theorem first_step {p : ℝ} (hp0 : 0 ≤ p) (hp1 : p ≤ 1) {h : ℝ} (hh : 0 ≤ h) (c a a' : ℝ) :
    |p * max (1 - exp (c + a)) 0 + (1 - p) * max (1 - exp (c + a')) 0 - smoothPut h c|
      ≤ p * |a| + (1 - p) * |a'| + h := by
  have hq : 0 ≤ 1 - p := by linarith
  have ha := put_lip (c + a) c
  have ha' := put_lip (c + a') c
  rw [add_sub_cancel_left] at ha ha'
  have hG : |smoothPut h c - max (1 - exp c) 0| ≤ h := by
    have e : smoothPut h c - max (1 - exp c) 0
        = ∫ z, (max (1 - exp (c + h * z)) 0 - max (1 - exp c) 0) ∂gaussianReal 0 1 := by
      rw [integral_sub (integrable_put h c) (integrable_const _)]; simp [smoothPut]
    rw [e]
    have hm := norm_integral_le_of_norm_le (μ := gaussianReal 0 1)
      (f := fun z => max (1 - exp (c + h * z)) 0 - max (1 - exp c) 0) (g := fun z => h * |z|)
      ((by simpa using (HN.integrable_pow_gauss 1).norm : Integrable (fun z : ℝ => |z|) (gaussianReal 0 1)).const_mul h)
      (.of_forall fun z => by
        have := put_lip (c + h * z) c
        rwa [add_sub_cancel_left, abs_mul, abs_of_nonneg hh] at this)
    rw [integral_const_mul, norm_eq_abs] at hm
    nlinarith [integral_abs_gauss_le]
  have hL : |p * max (1 - exp (c + a)) 0 + (1 - p) * max (1 - exp (c + a')) 0 - max (1 - exp c) 0|
      ≤ p * |a| + (1 - p) * |a'| := by
    calc _ = |p * (max (1 - exp (c + a)) 0 - max (1 - exp c) 0)
          + (1 - p) * (max (1 - exp (c + a')) 0 - max (1 - exp c) 0)| := by congr 1; ring
      _ ≤ _ := by
          refine (abs_add_le _ _).trans (add_le_add ?_ ?_) <;> rw [abs_mul]
          · rw [abs_of_nonneg hp0]; exact mul_le_mul_of_nonneg_left ha hp0
          · rw [abs_of_nonneg hq]; exact mul_le_mul_of_nonneg_left ha' hq
  rw [abs_le] at *
  constructor <;> linarith [hL.1, hL.2, hG.1, hG.2]

/-- Value with `m` steps to go of the put with strike one, in the log price. -/
noncomputable def exact (h μ : ℝ) (m : ℕ) (y : ℝ) : ℝ := smoothPut (h * √m) (y + m * μ)

theorem exact_zero (h μ y : ℝ) : exact h μ 0 y = max (1 - exp y) 0 := by
  simp [exact, smoothPut_zero]

theorem exact_succ (h μ : ℝ) (m : ℕ) (y : ℝ) :
    exact h μ (m + 1) y = ∫ z, exact h μ m (y + μ + h * z) ∂gaussianReal 0 1 := by
  unfold exact
  rw [← smoothPut_tower (s := h * √m) (h := h) (s' := h * √(m + 1 : ℕ)) _ (y + (m + 1 : ℕ) * μ)]
  · congr 1; ext z; congr 1; push_cast; ring
  · rw [mul_pow, mul_pow, sq_sqrt (by positivity), sq_sqrt (by positivity)]; push_cast; ring

/-- Sum of the one-step errors. -/
theorem lattice_error {S K u d x x' p Df h μ : ℝ} {n : ℕ} {V : ℕ → ℕ → ℝ} (hV : IsVal false false S K u d p Df n V)
    (hS : 0 < S) (hK : 0 < K) (hu : u = exp x) (hd : d = exp x') (hp0 : 0 ≤ p) (hp1 : p ≤ 1) (hD : 0 ≤ Df)
    (ε : ℕ → ℝ) (hε : ∀ m y, |p * exact h μ m (y + x) + (1 - p) * exact h μ m (y + x') - exact h μ (m + 1) y| ≤ ε m) :
    ∀ j ≤ n, ∀ k ≤ j, |V j k - K * Df ^ (n - j) * exact h μ (n - j) (log (node S u d j k / K))|
      ≤ K * Df ^ (n - j) * ∑ m ∈ Finset.range (n - j), ε m := by
  have hpos : ∀ j k, 0 < node S u d j k := fun j k => by
    rw [hu, hd]; unfold node; positivity
  refine level_induction (fun k hk => ?_) (fun j hj ih k hk => ?_)
  · rw [hV.terminal k hk]
    simp only [Nat.sub_self, pow_zero, Finset.range_zero, Finset.sum_empty, mul_zero, exact_zero, mul_one, payoff,
      Bool.false_eq_true, if_false]
    rw [exp_log (div_pos (hpos _ _) hK), mul_max_of_nonneg _ _ hK.le, mul_zero, mul_sub, mul_one,
      mul_div_cancel₀ _ hK.ne', sub_self, abs_zero]
  · have h1 := ih (k + 1) (by omega)
    have h2 := ih k (by omega)
    obtain ⟨m, hm⟩ : ∃ m, n - j = m + 1 := ⟨n - j - 1, by omega⟩
    have hm' : n - (j + 1) = m := by omega
    have hu' : node S u d (j + 1) (k + 1) = node S u d j k * u := by
      simp only [node, Nat.add_sub_add_right, pow_succ]; ring
    have hd' : node S u d (j + 1) k = node S u d j k * d := by
      simp only [node, show j + 1 - k = (j - k) + 1 by omega, pow_succ]; ring
    have lu : log (node S u d j k * u / K) = log (node S u d j k / K) + x := by
      rw [mul_div_right_comm, log_mul (div_pos (hpos _ _) hK).ne' (by rw [hu]; exact (exp_pos _).ne'), hu, log_exp]
    have ld : log (node S u d j k * d / K) = log (node S u d j k / K) + x' := by
      rw [mul_div_right_comm, log_mul (div_pos (hpos _ _) hK).ne' (by rw [hd]; exact (exp_pos _).ne'), hd, log_exp]
    rw [hm', hu', lu] at h1
    rw [hm', hd', ld] at h2
    rw [hV.back j hj k hk, hm, if_neg (by simp), Finset.sum_range_succ]
    set y := log (node S u d j k / K)
    have h3 := hε m y
    have hq : 0 ≤ 1 - p := by linarith
    set A := V (j + 1) (k + 1)
    set B := V (j + 1) k
    set σ := ∑ m ∈ Finset.range m, ε m
    have hKD : 0 ≤ K * Df ^ (m + 1) := mul_nonneg hK.le (pow_nonneg hD _)
    calc _ = |Df * (p * (A - K * Df ^ m * exact h μ m (y + x)) + (1 - p) * (B - K * Df ^ m * exact h μ m (y + x')))
          + K * Df ^ (m + 1) * (p * exact h μ m (y + x) + (1 - p) * exact h μ m (y + x') - exact h μ (m + 1) y)| := by
          congr 1; rw [pow_succ]; ring
      _ ≤ Df * (p * (K * Df ^ m * σ) + (1 - p) * (K * Df ^ m * σ)) + K * Df ^ (m + 1) * ε m := by
          refine (abs_add_le _ _).trans (add_le_add ?_ ?_)
          · rw [abs_mul, abs_of_nonneg hD]
            refine mul_le_mul_of_nonneg_left ((abs_add_le _ _).trans (add_le_add ?_ ?_)) hD <;> rw [abs_mul]
            · rw [abs_of_nonneg hp0]; exact mul_le_mul_of_nonneg_left h1 hp0
            · rw [abs_of_nonneg hq]; exact mul_le_mul_of_nonneg_left h2 hq
          · rw [abs_mul, abs_of_nonneg hKD]; exact mul_le_mul_of_nonneg_left h3 hKD
      _ = _ := by rw [pow_succ]; ring

/-- The one-step errors of a lattice away from maturity. -/
theorem later_step {p : ℝ} (hp0 : 0 ≤ p) (hp1 : p ≤ 1) {h μ : ℝ} (hh : 0 < h) {m : ℕ} (hm : 0 < m) (x x' y : ℝ) {s : ℝ}
    (hs : s = h * √m) :
    |p * exact h μ m (y + x) + (1 - p) * exact h μ m (y + x') - exact h μ (m + 1) y|
      ≤ |p * (x - μ) + (1 - p) * (x' - μ)| + |p * (x - μ) ^ 2 + (1 - p) * (x' - μ) ^ 2 - h ^ 2| / 2 * (1 + 2 / 5 / s)
        + |p * (x - μ) ^ 3 + (1 - p) * (x' - μ) ^ 3| / 6 * (1 + 2 / 5 / s + 2 / 5 / s ^ 2)
        + (p * (x - μ) ^ 4 + (1 - p) * (x' - μ) ^ 4 + 3 * h ^ 4) / 24
          * (1 + 2 / 5 / s + 2 / 5 / s ^ 2 + 2 / 5 / s ^ 3) := by
  have hm' : (0 : ℝ) < m := by exact_mod_cast hm
  have hs0 : 0 < s := by rw [hs]; positivity
  have key := one_step (f := smoothPut s) (f1 := fun y => -putG s y) (f2 := put2 s) (f3 := put3 s) (f4 := put4 s)
    (hasDerivAt_smoothPut hs0) (hasDerivAt_put1 hs0) (hasDerivAt_put2 hs0) (hasDerivAt_put3 hs0)
    (B0 := 1) (fun w => by rw [abs_of_nonneg (smoothPut_nonneg _ _)]; exact smoothPut_le_one _ _)
    (B1 := 1) (fun w => by rw [abs_neg]; exact abs_putG_le hs0 w) (put2_le hs0) (put3_le hs0) (put4_le hs0) hp0 hp1
    (y + μ + m * μ) (x - μ) (x' - μ) h
  rw [exact_succ]
  unfold exact
  rw [← hs]
  rw [mul_one] at key
  refine (le_of_eq ?_).trans key
  congr 2
  · congr 3 <;> ring
  · congr 1; ext z; congr 1; ring

end Verif
