import Verif.Lemmas.Lindeberg
import Mathlib.Analysis.Complex.ExponentialBounds

/-!
Explicit bounds for the distance between lattice prices and the Black–Scholes value.
-/
namespace Verif
open Real MeasureTheory ProbabilityTheory Spec Set _root_.Verif.Tree

theorem sum_inv_sqrt_le (N : ℕ) : ∑ i ∈ Finset.range N, 1 / √((i : ℝ) + 1) ≤ 2 * √N := by
  induction N with
  | zero => simp
  | succ N ih =>
    rw [Finset.sum_range_succ]
    have hb : 0 < √((N : ℝ) + 1) := sqrt_pos.2 (by positivity)
    have ha : 0 ≤ √(N : ℝ) := sqrt_nonneg _
    have ha2 : √(N : ℝ) ^ 2 = N := sq_sqrt (by positivity)
    have hb2 : √((N : ℝ) + 1) ^ 2 = N + 1 := sq_sqrt (by positivity)
    have hstep : 1 / √((N : ℝ) + 1) ≤ 2 * √((N : ℝ) + 1) - 2 * √N := by
      rw [div_le_iff₀ hb]
      nlinarith [sq_nonneg (√((N : ℝ) + 1) - √N)]
    push_cast
    linarith

theorem sum_inv_le (N : ℕ) : ∑ i ∈ Finset.range N, 1 / ((i : ℝ) + 1) ≤ 2 * √N := by
  refine (Finset.sum_le_sum fun i _ => ?_).trans (sum_inv_sqrt_le N)
  have h1 : (1 : ℝ) ≤ (i : ℝ) + 1 := by have : (0 : ℝ) ≤ i := by positivity
                                        linarith
  refine one_div_le_one_div_of_le (sqrt_pos.2 (by linarith)) ?_
  rw [sqrt_le_left (by linarith)]
  nlinarith

theorem sum_inv_three_half_le (N : ℕ) : ∑ i ∈ Finset.range N, 1 / (((i : ℝ) + 1) * √((i : ℝ) + 1)) ≤ 3 := by
  rcases Nat.eq_zero_or_pos N with rfl | hN
  · simp
  suffices h : ∑ i ∈ Finset.range N, 1 / (((i : ℝ) + 1) * √((i : ℝ) + 1)) ≤ 3 - 2 / √N by
    have : 0 ≤ 2 / √(N : ℝ) := by positivity
    linarith
  induction N, hN using Nat.le_induction with
  | base => norm_num
  | succ N hN ih =>
    rw [Finset.sum_range_succ]
    have hN' : (0 : ℝ) < N := by exact_mod_cast hN
    have hb : 0 < √((N : ℝ) + 1) := sqrt_pos.2 (by positivity)
    have ha : 0 < √(N : ℝ) := sqrt_pos.2 hN'
    have ha2 : √(N : ℝ) ^ 2 = N := sq_sqrt hN'.le
    have hb2 : √((N : ℝ) + 1) ^ 2 = N + 1 := sq_sqrt (by positivity)
    have hstep : 1 / (((N : ℝ) + 1) * √((N : ℝ) + 1)) ≤ 2 / √N - 2 / √((N : ℝ) + 1) := by
      set a := √(N : ℝ)
      set b := √((N : ℝ) + 1)
      rw [← hb2]
      have hab : a < b := sqrt_lt_sqrt hN'.le (by linarith)
      have e : 2 / a - 2 / b = 2 * (b - a) / (a * b) := by field_simp
      rw [e, div_le_div_iff₀ (by positivity) (by positivity)]
      have h1 : (b - a) * (b + a) = 1 := by nlinarith
      have h2 : a * (b + a) ≤ 2 * b ^ 2 := by nlinarith
      have h3 : a * ((b - a) * (b + a)) ≤ 2 * b ^ 2 * (b - a) := by nlinarith
      rw [h1] at h3
      nlinarith
    push_cast
    linarith

/-- The total error of a lattice from bounds on its one-step errors. -/
theorem sum_errors {S K u d x x' p Df h μ : ℝ} {n : ℕ} {V : ℕ → ℕ → ℝ} (hV : IsVal false false S K u d p Df n V)
    (hS : 0 < S) (hK : 0 < K) (hu : u = exp x) (hd : d = exp x') (hp0 : 0 ≤ p) (hp1 : p ≤ 1) (hD : 0 ≤ Df)
    (hn : 0 < n) {E0 A0 A1 A2 A3 : ℝ} (hA0 : 0 ≤ A0) (hA1 : 0 ≤ A1) (hA2 : 0 ≤ A2) (hA3 : 0 ≤ A3)
    (hfirst : ∀ y, |p * exact h μ 0 (y + x) + (1 - p) * exact h μ 0 (y + x') - exact h μ (0 + 1) y| ≤ E0)
    (hlater : ∀ m : ℕ, 0 < m → ∀ y, |p * exact h μ m (y + x) + (1 - p) * exact h μ m (y + x') - exact h μ (m + 1) y|
      ≤ A0 + A1 * (1 / √m) + A2 * (1 / m) + A3 * (1 / (m * √m))) :
    |V 0 0 - K * Df ^ n * exact h μ n (log (S / K))|
      ≤ K * Df ^ n * (E0 + n * A0 + 2 * √n * A1 + 2 * √n * A2 + 3 * A3) := by
  set ε : ℕ → ℝ := fun m => if m = 0 then E0 else
    A0 + A1 * (1 / √m) + A2 * (1 / m) + A3 * (1 / (m * √m)) with hεdef
  have hε : ∀ m y, |p * exact h μ m (y + x) + (1 - p) * exact h μ m (y + x') - exact h μ (m + 1) y| ≤ ε m := by
    intro m y
    rcases Nat.eq_zero_or_pos m with rfl | hm
    · simp only [hεdef, if_true]; exact hfirst y
    · simp only [hεdef, if_neg hm.ne']; exact hlater m hm y
  have main := lattice_error hV hS hK hu hd hp0 hp1 hD ε hε 0 (by omega) 0 le_rfl
  have e0 : node S u d 0 0 = S := by simp [node]
  rw [Nat.sub_zero, e0] at main
  refine main.trans (mul_le_mul_of_nonneg_left ?_ (mul_nonneg hK.le (pow_nonneg hD _)))
  obtain ⟨N, rfl⟩ : ∃ N, n = N + 1 := ⟨n - 1, by omega⟩
  rw [Finset.sum_range_succ']
  have hz : ε 0 = E0 := by simp [hεdef]
  have hsum : ∑ i ∈ Finset.range N, ε (i + 1)
      = N * A0 + A1 * ∑ i ∈ Finset.range N, 1 / √((i : ℝ) + 1) + A2 * ∑ i ∈ Finset.range N, 1 / ((i : ℝ) + 1)
        + A3 * ∑ i ∈ Finset.range N, 1 / (((i : ℝ) + 1) * √((i : ℝ) + 1)) := by
    simp only [hεdef, Nat.add_eq_zero_iff, one_ne_zero, and_false, if_false, Finset.sum_add_distrib, ← Finset.mul_sum,
      Finset.sum_const, Finset.card_range, nsmul_eq_mul]
    push_cast; ring
  rw [hsum, hz]
  have hNle : √(N : ℝ) ≤ √((N + 1 : ℕ) : ℝ) := sqrt_le_sqrt (by push_cast; linarith)
  have s1 := mul_le_mul_of_nonneg_left ((sum_inv_sqrt_le N).trans (mul_le_mul_of_nonneg_left hNle two_pos.le)) hA1
  have s2 := mul_le_mul_of_nonneg_left ((sum_inv_le N).trans (mul_le_mul_of_nonneg_left hNle two_pos.le)) hA2
  have s3 := mul_le_mul_of_nonneg_left (sum_inv_three_half_le N) hA3
  have s0 : (N : ℝ) * A0 ≤ ((N + 1 : ℕ) : ℝ) * A0 := mul_le_mul_of_nonneg_right (by push_cast; linarith) hA0
  linarith

/-- `1/s`, `1/s²`, `1/s³` for `s = h √m`. -/
theorem inv_powers {h s : ℝ} (hh : 0 < h) {m : ℕ} (hm : 0 < m) (hs : s = h * √(m : ℝ)) :
    1 / s = 1 / h * (1 / √m) ∧ 1 / s ^ 2 = 1 / h ^ 2 * (1 / m) ∧ 1 / s ^ 3 = 1 / h ^ 3 * (1 / (m * √m)) := by
  have hm' : (0 : ℝ) < m := by exact_mod_cast hm
  have hsm : 0 < √(m : ℝ) := sqrt_pos.2 hm'
  have hsm2 : √(m : ℝ) ^ 2 = m := sq_sqrt hm'.le
  refine ⟨?_, ?_, ?_⟩
  · rw [hs]; field_simp
  · rw [hs, mul_pow, hsm2]; field_simp
  · rw [hs, mul_pow, pow_succ (√(m : ℝ)), hsm2]; field_simp

/-- The total error of a lattice from bounds on the moments of its step. -/
theorem total_error {S K u d x x' p Df h μ : ℝ} {n : ℕ} {V : ℕ → ℕ → ℝ} (hV : IsVal false false S K u d p Df n V)
    (hS : 0 < S) (hK : 0 < K) (hu : u = exp x) (hd : d = exp x') (hp0 : 0 ≤ p) (hp1 : p ≤ 1) (hD : 0 ≤ Df)
    (hh : 0 < h) (hn : 0 < n) {M0 M1 M2 M3 M4 Q : ℝ} (h0 : p * |x - μ| + (1 - p) * |x' - μ| ≤ M0)
    (h1 : |p * (x - μ) + (1 - p) * (x' - μ)| ≤ M1)
    (h2 : |p * (x - μ) ^ 2 + (1 - p) * (x' - μ) ^ 2 - h ^ 2| ≤ M2)
    (h3 : |p * (x - μ) ^ 3 + (1 - p) * (x' - μ) ^ 3| ≤ M3)
    (h4 : p * (x - μ) ^ 4 + (1 - p) * (x' - μ) ^ 4 ≤ M4) (hQ : Q = (M4 + 3 * h ^ 4) / 24) :
    |V 0 0 - K * Df ^ n * exact h μ n (log (S / K))|
      ≤ K * Df ^ n * (M0 + h + n * (M1 + M2 / 2 + M3 / 6 + Q) + 2 / 5 * (2 * √n / h) * (M2 / 2 + M3 / 6 + Q)
        + 2 / 5 * (2 * √n / h ^ 2) * (M3 / 6 + Q) + 2 / 5 * (3 / h ^ 3) * Q) := by
  have hM2 : 0 ≤ M2 := (abs_nonneg _).trans h2
  have hM3 : 0 ≤ M3 := (abs_nonneg _).trans h3
  have hq : 0 ≤ 1 - p := by linarith
  have hM4 : 0 ≤ M4 := le_trans (by positivity) h4
  have hM1 : 0 ≤ M1 := (abs_nonneg _).trans h1
  have hQ0 : 0 ≤ Q := by rw [hQ]; positivity
  have key := sum_errors (h := h) (μ := μ) (E0 := M0 + h) (A0 := M1 + M2 / 2 + M3 / 6 + Q)
    (A1 := 2 / 5 * (M2 / 2 + M3 / 6 + Q) / h) (A2 := 2 / 5 * (M3 / 6 + Q) / h ^ 2) (A3 := 2 / 5 * Q / h ^ 3)
    hV hS hK hu hd hp0 hp1 hD hn (by positivity) (by positivity) (by positivity) (by positivity)
    (fun y => by
      have := first_step hp0 hp1 hh.le (y + μ) (x - μ) (x' - μ)
      rw [exact_zero, exact_zero]
      have e : exact h μ (0 + 1) y = smoothPut h (y + μ) := by simp [exact]
      rw [e]
      rw [show y + μ + (x - μ) = y + x by ring, show y + μ + (x' - μ) = y + x' by ring] at this
      linarith)
    (fun m hm y => by
      have hm' : (0 : ℝ) < m := by exact_mod_cast hm
      have key := later_step hp0 hp1 (μ := μ) hh hm x x' y rfl
      refine key.trans ?_
      obtain ⟨e1, e2, e3⟩ := inv_powers hh hm rfl
      set s := h * √(m : ℝ) with hsdef
      have hs : 0 < s := by positivity
      have b1 : 0 ≤ 1 + 2 / 5 / s := by positivity
      have b2 : 0 ≤ 1 + 2 / 5 / s + 2 / 5 / s ^ 2 := by positivity
      have b3 : 0 ≤ 1 + 2 / 5 / s + 2 / 5 / s ^ 2 + 2 / 5 / s ^ 3 := by positivity
      have t2 := mul_le_mul_of_nonneg_right (div_le_div_of_nonneg_right h2 (by norm_num : (0 : ℝ) ≤ 2)) b1
      have t3 := mul_le_mul_of_nonneg_right (div_le_div_of_nonneg_right h3 (by norm_num : (0 : ℝ) ≤ 6)) b2
      have t4 := mul_le_mul_of_nonneg_right (div_le_div_of_nonneg_right (add_le_add_left h4 (3 * h ^ 4))
        (by norm_num : (0 : ℝ) ≤ 24)) b3
      rw [← hQ] at t4
      refine (add_le_add (add_le_add (add_le_add h1 t2) t3) t4).trans (le_of_eq ?_)
      have f1 : 2 / 5 / s = 2 / 5 * (1 / h * (1 / √m)) := by rw [← e1]; ring
      have f2 : 2 / 5 / s ^ 2 = 2 / 5 * (1 / h ^ 2 * (1 / m)) := by rw [← e2]; ring
      have f3 : 2 / 5 / s ^ 3 = 2 / 5 * (1 / h ^ 3 * (1 / (m * √m))) := by rw [← e3]; ring
      rw [f1, f2, f3]
      ring)
  refine key.trans (le_of_eq ?_)
  ring

/-- The exact put in these coordinates. -/
theorem exact_bsPut {S K t r b σ : ℝ} (hS : 0 < S) (hK : 0 < K) (ht : 0 ≤ t) {n : ℕ} (hn : 0 < n) :
    K * exp (-r * (t / n)) ^ n * exact (σ * √(t / n)) ((b - σ ^ 2 / 2) * (t / n)) n (log (S / K))
      = bsPut S K t r b σ := by
  have hn' : (n : ℝ) ≠ 0 := by exact_mod_cast hn.ne'
  rw [exp_div_pow _ _ hn.ne']
  unfold exact bsPut smoothPut Spec.terminal
  rw [mul_comm K, mul_assoc, ← integral_const_mul]
  congr 1
  refine integral_congr_ae (.of_forall fun z => ?_)
  simp only
  rw [mul_max_of_nonneg _ _ hK.le, mul_zero, mul_sub, mul_one]
  congr 2
  have e1 : (n : ℝ) * ((b - σ ^ 2 / 2) * (t / n)) = (b - σ ^ 2 / 2) * t := by field_simp
  have e2 : σ * √(t / n) * √n = σ * √t := by
    rw [mul_assoc, ← sqrt_mul (by positivity), div_mul_cancel₀ _ hn']
  rw [e1, e2, add_assoc, exp_add, exp_log (div_pos hS hK)]
  field_simp

/-! ### Jarrow–Rudd -/

theorem jr_arith {h : ℝ} (h0 : 0 < h) {n : ℕ} (hn : 0 < n) :
    h + h + n * (h ^ 4 / 6) + 2 / 5 * (2 * √n / h) * (h ^ 4 / 6) + 2 / 5 * (2 * √n / h ^ 2) * (h ^ 4 / 6)
      + 2 / 5 * (3 / h ^ 3) * (h ^ 4 / 6) ≤ h * (3 + (h * √n) ^ 3) := by
  have hn' : (0 : ℝ) < n := by exact_mod_cast hn
  have hn1 : (1 : ℝ) ≤ √n := by
    rw [one_le_sqrt]; exact_mod_cast hn
  have hnn : √(n : ℝ) ^ 2 = n := sq_sqrt hn'.le
  generalize √(n : ℝ) = q at *
  rw [← hnn]
  have e1 : q ^ 2 * (h ^ 4 / 6) = h * (h * (h * q) ^ 2 / 6) := by ring
  have e2 : 2 / 5 * (2 * q / h) * (h ^ 4 / 6) = h * (2 / 15 * (h * (h * q))) := by field_simp; ring
  have e3 : 2 / 5 * (2 * q / h ^ 2) * (h ^ 4 / 6) = h * (2 / 15 * (h * q)) := by field_simp; ring
  have e4 : 2 / 5 * (3 / h ^ 3) * (h ^ 4 / 6) = h * (1 / 5) := by field_simp; norm_num
  rw [e1, e2, e3, e4]
  have hhx : h ≤ h * q := by nlinarith
  generalize h * q = x at *
  have hx0 : 0 < x := h0.trans_le hhx
  have : h + h + h * (h * x ^ 2 / 6) + h * (2 / 15 * (h * x)) + h * (2 / 15 * x) + h * (1 / 5)
      = h * (2 + h * x ^ 2 / 6 + 2 / 15 * (h * x) + 2 / 15 * x + 1 / 5) := by ring
  rw [this]
  refine mul_le_mul_of_nonneg_left ?_ h0.le
  have a1 : h * x ^ 2 ≤ x ^ 3 := by nlinarith [sq_nonneg x]
  have a2 : h * x ≤ x ^ 2 := by nlinarith
  have a3 : x ≤ 1 + x ^ 3 := by nlinarith [sq_nonneg (x - 1), mul_pos hx0 hx0]
  have a4 : x ^ 2 ≤ 1 + x ^ 3 := by nlinarith [sq_nonneg (x - 1), mul_pos hx0 hx0]
  linarith [pow_pos hx0 3]

theorem jr_rate {S K t r b σ : ℝ} (hS : 0 < S) (hK : 0 < K) (ht : 0 < t) (hσ : 0 < σ) {n : ℕ} (hn : 0 < n)
    {V : ℕ → ℕ → ℝ} (hV : IsVal false false S K (exp ((b - σ ^ 2 / 2) * (t / n) + σ * √(t / n)))
      (exp ((b - σ ^ 2 / 2) * (t / n) - σ * √(t / n))) (1 / 2) (exp (-r * (t / n))) n V) :
    |V 0 0 - bsPut S K t r b σ| ≤ K * exp (-r * t) * (σ * √(t / n)) * (3 + (σ * √t) ^ 3) := by
  have hn' : (0 : ℝ) < n := by exact_mod_cast hn
  have hdt : 0 < t / n := by positivity
  set h := σ * √(t / n) with hh
  set μ := (b - σ ^ 2 / 2) * (t / n) with hμ
  have h0 : 0 < h := by positivity
  have key := total_error (h := h) (μ := μ) (M0 := h) (M1 := 0) (M2 := 0) (M3 := 0) (M4 := h ^ 4)
    (Q := h ^ 4 / 6) hV hS hK rfl rfl (by norm_num) (by norm_num) (exp_pos _).le h0 hn
    (by
      rw [show μ + h - μ = h by ring, show μ - h - μ = -h by ring, abs_neg, abs_of_pos h0]
      linarith)
    (by ring_nf; simp) (by ring_nf; simp) (by ring_nf; simp) (by ring_nf; simp) (by ring)
  rw [exact_bsPut hS hK ht.le hn, exp_div_pow _ _ hn.ne'] at key
  refine key.trans ?_
  rw [mul_assoc (K * exp (-r * t))]
  refine mul_le_mul_of_nonneg_left ?_ (by positivity)
  have hxn : σ * √t = h * √n := by
    rw [hh, mul_assoc, ← sqrt_mul (by positivity), div_mul_cancel₀ _ hn'.ne']
  rw [hxn]
  clear_value h μ
  simp only [zero_div, zero_add]
  exact jr_arith h0 hn

/-! ### Cox–Ross–Rubinstein -/

theorem cosh_le_four {w : ℝ} (h : |w| ≤ 2) : cosh w ≤ 4 := by
  rw [← cosh_abs]
  have h0 := abs_nonneg w
  generalize |w| = v at *
  have e1 := exp_one_lt_d9
  have e2 : exp 2 = exp 1 ^ 2 := by rw [← exp_nat_mul]; norm_num
  have e3 : exp (-2) ≤ 1 / 2 := by
    have h1 := add_one_le_exp (2 : ℝ)
    rw [exp_neg, ← one_div]
    exact one_div_le_one_div_of_le two_pos (by linarith)
  have hv : cosh v ≤ cosh 2 := cosh_le_cosh.2 (by rw [abs_of_nonneg h0, abs_two]; exact h)
  have e4 : exp 1 ^ 2 ≤ 7 + 2 / 5 := by
    have := pow_le_pow_left₀ (exp_pos 1).le e1.le 2
    norm_num at this ⊢; linarith
  rw [cosh_eq 2] at hv; linarith

theorem cosh_taylor {h : ℝ} (h0 : 0 < h) (h2 : h ≤ 2) : |cosh h - (1 + h ^ 2 / 2)| ≤ h ^ 4 / 6 := by
  have := taylor4 (f := cosh) (f1 := sinh) (f2 := cosh) (f3 := sinh) (f4 := cosh) (c := 0) (u := h) (B := 4)
    (fun w _ => hasDerivAt_cosh w) (fun w _ => hasDerivAt_sinh w) (fun w _ => hasDerivAt_cosh w)
    (fun w _ => hasDerivAt_sinh w) (fun w hw => by
      rw [uIcc_of_le h0.le] at hw
      rw [abs_of_pos (cosh_pos w)]
      exact cosh_le_four (abs_le.2 ⟨by linarith [hw.1], by linarith [hw.2]⟩))
  simp only [cosh_zero, sinh_zero, sub_zero, zero_mul, add_zero, zero_div, one_mul] at this
  linarith

theorem sinh_taylor {h : ℝ} (h0 : 0 < h) (h2 : h ≤ 2) : h ≤ sinh h ∧ sinh h ≤ h + h ^ 3 / 2 := by
  refine ⟨self_le_sinh_iff.2 h0.le, ?_⟩
  have := taylor4 (f := sinh) (f1 := cosh) (f2 := sinh) (f3 := cosh) (f4 := sinh) (c := 0) (u := h) (B := 4)
    (fun w _ => hasDerivAt_sinh w) (fun w _ => hasDerivAt_cosh w) (fun w _ => hasDerivAt_sinh w)
    (fun w _ => hasDerivAt_cosh w) (fun w hw => by
      rw [uIcc_of_le h0.le] at hw
      rw [abs_of_nonneg (sinh_nonneg_iff.2 hw.1)]
      exact (sinh_lt_cosh w).le.trans (cosh_le_four (abs_le.2 ⟨by linarith [hw.1], by linarith [hw.2]⟩)))
  simp only [cosh_zero, sinh_zero, sub_zero, zero_mul, add_zero, zero_div, one_mul, zero_add] at this
  have h3 := (abs_le.1 this).2
  have h4 : h ^ 4 ≤ 2 * h ^ 3 := by nlinarith [pow_pos h0 3]
  linarith

/-- Mean of the step of a CRR lattice. -/
theorem crr_mean_error {h β γ p : ℝ} (h0 : 0 < h) (hγ : γ = |β| + 1 / 2) (hs : γ * h ≤ 1)
    (hp : p = (exp (β * h ^ 2) - exp (-h)) / (exp h - exp (-h))) :
    |h * (2 * p - 1) - (β - 1 / 2) * h ^ 2| ≤ 2 * γ ^ 2 * h ^ 4 := by
  have hβ0 := abs_nonneg β
  have hγ2 : 1 / 2 ≤ γ := by linarith
  have hh2 : h ≤ 2 := by nlinarith
  obtain ⟨s1, s2⟩ := sinh_taylor h0 hh2
  have c1 := cosh_taylor h0 hh2
  have hsp : 0 < sinh h := h0.trans_le s1
  have hq : |β * h ^ 2| ≤ 1 := by
    rw [abs_mul, abs_of_nonneg (sq_nonneg h)]
    nlinarith
  have ex := abs_exp_sub_one_sub_id_le hq
  have ep : h * (2 * p - 1) * sinh h = h * (exp (β * h ^ 2) - cosh h) := by
    have hd : exp h - exp (-h) = 2 * sinh h := by rw [sinh_eq]; ring
    have hc : exp (-h) = cosh h - sinh h := by rw [cosh_eq, sinh_eq]; ring
    rw [hp, hd, hc]; field_simp; ring
  set m := h * (2 * p - 1) - (β - 1 / 2) * h ^ 2 with hm
  have e : m * sinh h = h * ((exp (β * h ^ 2) - 1 - β * h ^ 2) - (cosh h - (1 + h ^ 2 / 2)))
      - (β - 1 / 2) * h ^ 2 * (sinh h - h) := by
    rw [hm, sub_mul, ep]; ring
  have hβγ : |β - 1 / 2| ≤ γ := by
    rw [hγ, abs_le]; constructor <;> linarith [le_abs_self β, neg_abs_le β]
  have hβ2 : (β * h ^ 2) ^ 2 = |β| ^ 2 * h ^ 4 := by rw [sq_abs]; ring
  have b1 : |h * ((exp (β * h ^ 2) - 1 - β * h ^ 2) - (cosh h - (1 + h ^ 2 / 2)))| ≤ h * (|β| ^ 2 * h ^ 4 + h ^ 4 / 6) := by
    rw [abs_mul, abs_of_pos h0]
    refine mul_le_mul_of_nonneg_left ((abs_sub _ _).trans (add_le_add ?_ c1)) h0.le
    rwa [← hβ2]
  have b2 : |(β - 1 / 2) * h ^ 2 * (sinh h - h)| ≤ γ * h ^ 2 * (h ^ 3 / 2) := by
    rw [abs_mul, abs_mul, abs_of_nonneg (sq_nonneg h), abs_of_nonneg (by linarith : 0 ≤ sinh h - h)]
    exact mul_le_mul (mul_le_mul_of_nonneg_right hβγ (sq_nonneg h)) (by linarith) (by linarith) (by positivity)
  have b3 : |m| * h ≤ h * (|β| ^ 2 * h ^ 4 + h ^ 4 / 6) + γ * h ^ 2 * (h ^ 3 / 2) := by
    calc |m| * h ≤ |m| * sinh h := mul_le_mul_of_nonneg_left s1 (abs_nonneg m)
      _ = |m * sinh h| := by rw [abs_mul, abs_of_pos hsp]
      _ ≤ _ := by rw [e]; exact (abs_sub _ _).trans (add_le_add b1 b2)
  have b4 : |β| ^ 2 + 1 / 6 + γ / 2 ≤ 2 * γ ^ 2 := by rw [hγ]; nlinarith
  have b5 : |m| * h ≤ (2 * γ ^ 2 * h ^ 4) * h := by
    refine b3.trans ?_
    have := mul_le_mul_of_nonneg_right b4 (by positivity : 0 ≤ h ^ 5)
    nlinarith
  exact le_of_mul_le_mul_right b5 h0

theorem crr_moments {h γ μ m p : ℝ} (h0 : 0 < h) (hγ2 : 1 / 2 ≤ γ) (hs : γ * h ≤ 1) (hp0 : 0 ≤ p) (hp1 : p ≤ 1)
    (hμ : |μ| ≤ γ * h ^ 2) (hm : |m| ≤ 2 * γ ^ 2 * h ^ 4) (e : h * (2 * p - 1) - μ = m) :
    p * |h - μ| + (1 - p) * |-h - μ| ≤ 2 * h ∧ |p * (h - μ) + (1 - p) * (-h - μ)| ≤ 2 * γ ^ 2 * h ^ 4 ∧
    |p * (h - μ) ^ 2 + (1 - p) * (-h - μ) ^ 2 - h ^ 2| ≤ 9 * γ ^ 2 * h ^ 4 ∧
    |p * (h - μ) ^ 3 + (1 - p) * (-h - μ) ^ 3| ≤ 20 * γ * h ^ 4 ∧
    p * (h - μ) ^ 4 + (1 - p) * (-h - μ) ^ 4 ≤ 16 * h ^ 4 := by
  have hh2 : h ≤ 2 := by nlinarith
  have hq : 0 ≤ 1 - p := by linarith
  have hμh : |μ| ≤ h := hμ.trans (by nlinarith)
  have hγ0 : 0 < γ := by linarith
  have a1 : |h - μ| ≤ 2 * h := by rw [abs_le] at *; constructor <;> linarith [hμh.1, hμh.2]
  have a2 : |-h - μ| ≤ 2 * h := by rw [abs_le] at *; constructor <;> linarith [hμh.1, hμh.2]
  refine ⟨by nlinarith [mul_le_mul_of_nonneg_left a1 hp0, mul_le_mul_of_nonneg_left a2 hq], ?_, ?_, ?_, ?_⟩
  · rwa [show p * (h - μ) + (1 - p) * (-h - μ) = m by rw [← e]; ring]
  · rw [show p * (h - μ) ^ 2 + (1 - p) * (-h - μ) ^ 2 - h ^ 2 = -(μ ^ 2 + 2 * μ * m) by rw [← e]; ring, abs_neg]
    refine (abs_add_le _ _).trans ?_
    rw [abs_mul, abs_mul, abs_two, abs_of_nonneg (sq_nonneg μ), ← sq_abs]
    have t1 : |μ| ^ 2 ≤ (γ * h ^ 2) ^ 2 := pow_le_pow_left₀ (abs_nonneg _) hμ 2
    have t2 : |μ| * |m| ≤ h * (2 * γ ^ 2 * h ^ 4) := mul_le_mul hμh hm (abs_nonneg _) h0.le
    have t3 : h * (2 * γ ^ 2 * h ^ 4) ≤ 2 * (2 * γ ^ 2 * h ^ 4) := mul_le_mul_of_nonneg_right hh2 (by positivity)
    nlinarith
  · rw [show p * (h - μ) ^ 3 + (1 - p) * (-h - μ) ^ 3 = -(2 * h ^ 2 * μ) + 2 * μ ^ 3 + m * (h ^ 2 + 3 * μ ^ 2) by
      rw [← e]; ring]
    have hμ2 : μ ^ 2 ≤ h ^ 2 := sq_le_sq' (by linarith [(abs_le.1 hμh).1]) (abs_le.1 hμh).2
    have t1 : |2 * h ^ 2 * μ| ≤ 2 * h ^ 2 * (γ * h ^ 2) := by
      rw [abs_mul, abs_of_nonneg (by positivity : 0 ≤ 2 * h ^ 2)]
      exact mul_le_mul_of_nonneg_left hμ (by positivity)
    have t2 : |2 * μ ^ 3| ≤ 2 * (h ^ 2 * (γ * h ^ 2)) := by
      rw [show 2 * μ ^ 3 = 2 * (μ ^ 2 * μ) by ring, abs_mul, abs_two, abs_mul, abs_of_nonneg (sq_nonneg μ)]
      exact mul_le_mul_of_nonneg_left (mul_le_mul hμ2 hμ (abs_nonneg _) (sq_nonneg h)) two_pos.le
    have hg2 : γ ^ 2 * h ^ 2 ≤ 1 := by rw [← mul_pow]; exact pow_le_one₀ (by positivity) hs
    have hm2 : |m| ≤ 2 * h ^ 2 := hm.trans (by nlinarith [sq_nonneg h])
    have t3 : |m * (h ^ 2 + 3 * μ ^ 2)| ≤ 2 * h ^ 2 * (4 * h ^ 2) := by
      rw [abs_mul, abs_of_nonneg (by positivity : 0 ≤ h ^ 2 + 3 * μ ^ 2)]
      exact mul_le_mul hm2 (by linarith) (by positivity) (by positivity)
    refine (abs_add_le _ _).trans ((add_le_add ((abs_add_le _ _).trans (add_le_add (le_of_eq_of_le (abs_neg _) t1) t2)) t3).trans ?_)
    nlinarith [pow_pos h0 4]
  · have f1 : (h - μ) ^ 4 ≤ (2 * h) ^ 4 := by
      rw [← abs_of_nonneg (by positivity : 0 ≤ (h - μ) ^ 4), abs_pow]; exact pow_le_pow_left₀ (abs_nonneg _) a1 4
    have f2 : (-h - μ) ^ 4 ≤ (2 * h) ^ 4 := by
      rw [← abs_of_nonneg (by positivity : 0 ≤ (-h - μ) ^ 4), abs_pow]; exact pow_le_pow_left₀ (abs_nonneg _) a2 4
    nlinarith [mul_le_mul_of_nonneg_left f1 hp0, mul_le_mul_of_nonneg_left f2 hq]

theorem crr_arith {h γ : ℝ} (h0 : 0 < h) (hγ2 : 1 / 2 ≤ γ) (hs : γ * h ≤ 1) {n : ℕ} (hn : 0 < n) :
    2 * h + h + n * (2 * γ ^ 2 * h ^ 4 + 9 * γ ^ 2 * h ^ 4 / 2 + 20 * γ * h ^ 4 / 6 + 19 / 24 * h ^ 4)
      + 2 / 5 * (2 * √n / h) * (9 * γ ^ 2 * h ^ 4 / 2 + 20 * γ * h ^ 4 / 6 + 19 / 24 * h ^ 4)
      + 2 / 5 * (2 * √n / h ^ 2) * (20 * γ * h ^ 4 / 6 + 19 / 24 * h ^ 4) + 2 / 5 * (3 / h ^ 3) * (19 / 24 * h ^ 4)
      ≤ h * (4 + 17 * (γ * (h * √n)) * (1 + h * √n)) := by
  have hn' : (0 : ℝ) < n := by exact_mod_cast hn
  have hnn : √(n : ℝ) ^ 2 = n := sq_sqrt hn'.le
  have hq0 : 0 ≤ √(n : ℝ) := sqrt_nonneg _
  generalize √(n : ℝ) = q at *
  rw [← hnn]
  have e1 : q ^ 2 * (2 * γ ^ 2 * h ^ 4 + 9 * γ ^ 2 * h ^ 4 / 2 + 20 * γ * h ^ 4 / 6 + 19 / 24 * h ^ 4)
      = h * ((13 / 2 * γ ^ 2 + 10 / 3 * γ + 19 / 24) * h * (h * q) ^ 2) := by ring
  have e2 : 2 / 5 * (2 * q / h) * (9 * γ ^ 2 * h ^ 4 / 2 + 20 * γ * h ^ 4 / 6 + 19 / 24 * h ^ 4)
      = h * (4 / 5 * (9 / 2 * γ ^ 2 + 10 / 3 * γ + 19 / 24) * h * (h * q)) := by field_simp; ring
  have e3 : 2 / 5 * (2 * q / h ^ 2) * (20 * γ * h ^ 4 / 6 + 19 / 24 * h ^ 4)
      = h * (4 / 5 * (10 / 3 * γ + 19 / 24) * (h * q)) := by field_simp; ring
  have e4 : 2 / 5 * (3 / h ^ 3) * (19 / 24 * h ^ 4) = h * (19 / 20) := by field_simp; norm_num
  rw [e1, e2, e3, e4]
  have hx0 : 0 ≤ h * q := by positivity
  generalize h * q = x at *
  have : 2 * h + h + h * ((13 / 2 * γ ^ 2 + 10 / 3 * γ + 19 / 24) * h * x ^ 2)
      + h * (4 / 5 * (9 / 2 * γ ^ 2 + 10 / 3 * γ + 19 / 24) * h * x) + h * (4 / 5 * (10 / 3 * γ + 19 / 24) * x)
      + h * (19 / 20) = h * (3 + (13 / 2 * γ ^ 2 + 10 / 3 * γ + 19 / 24) * h * x ^ 2
        + 4 / 5 * (9 / 2 * γ ^ 2 + 10 / 3 * γ + 19 / 24) * h * x + 4 / 5 * (10 / 3 * γ + 19 / 24) * x + 19 / 20) := by ring
  rw [this]
  refine mul_le_mul_of_nonneg_left ?_ h0.le
  have a0 : (13 / 2 * γ ^ 2 + 10 / 3 * γ + 19 / 24) * h ≤ 17 * γ := by
    have : 13 / 2 * γ ^ 2 + 10 / 3 * γ + 19 / 24 ≤ 17 * γ * γ := by nlinarith
    calc _ ≤ 17 * γ * γ * h := mul_le_mul_of_nonneg_right this h0.le
      _ = 17 * γ * (γ * h) := by ring
      _ ≤ 17 * γ * 1 := mul_le_mul_of_nonneg_left hs (by linarith)
      _ = _ := mul_one _
  have a1 : 4 / 5 * (9 / 2 * γ ^ 2 + 10 / 3 * γ + 19 / 24) * h ≤ 12 * γ := by
    have : 4 / 5 * (9 / 2 * γ ^ 2 + 10 / 3 * γ + 19 / 24) ≤ 12 * γ * γ := by nlinarith
    calc _ ≤ 12 * γ * γ * h := mul_le_mul_of_nonneg_right this h0.le
      _ = 12 * γ * (γ * h) := by ring
      _ ≤ 12 * γ * 1 := mul_le_mul_of_nonneg_left hs (by linarith)
      _ = _ := mul_one _
  have a2 : 4 / 5 * (10 / 3 * γ + 19 / 24) ≤ 5 * γ := by linarith
  nlinarith [mul_le_mul_of_nonneg_right a0 (sq_nonneg x), mul_le_mul_of_nonneg_right a1 hx0,
    mul_le_mul_of_nonneg_right a2 hx0]

theorem crr_rate {S K t r b σ : ℝ} (hS : 0 < S) (hK : 0 < K) (ht : 0 < t) (hσ : 0 < σ) {n : ℕ} (hn : 0 < n)
    {θ : ℝ} (hθ : θ = (|b| + σ ^ 2 / 2) / σ) (hs : θ * √(t / n) ≤ 1) {u d p : ℝ} (hu : u = exp (σ * √(t / n)))
    (hd : d = exp (-(σ * √(t / n)))) (hp : p = (exp (b * (t / n)) - d) / (u - d)) (hp0 : 0 ≤ p) (hp1 : p ≤ 1)
    {V : ℕ → ℕ → ℝ} (hV : IsVal false false S K u d p (exp (-r * (t / n))) n V) :
    |V 0 0 - bsPut S K t r b σ|
      ≤ K * exp (-r * t) * (σ * √(t / n)) * (4 + 17 * (θ * √t) * (1 + σ * √t)) := by
  have hn' : (0 : ℝ) < n := by exact_mod_cast hn
  have hdt : 0 < t / n := by positivity
  have hdt2 : √(t / n) ^ 2 = t / n := sq_sqrt hdt.le
  have hsd : 0 < √(t / n) := sqrt_pos.2 hdt
  set γ := |b / σ ^ 2| + 1 / 2 with hγ
  have hγθ : γ * σ = θ := by
    rw [hγ, hθ, abs_div, abs_of_pos (pow_pos hσ 2)]; field_simp
  set h := σ * √(t / n) with hh
  have h0 : 0 < h := by positivity
  have hs' : γ * h ≤ 1 := by rw [hh, ← mul_assoc, hγθ]; exact hs
  have hγ2 : 1 / 2 ≤ γ := by have := abs_nonneg (b / σ ^ 2); linarith
  have hbh : b * (t / n) = b / σ ^ 2 * h ^ 2 := by rw [hh, mul_pow, hdt2]; field_simp
  have hμh : (b - σ ^ 2 / 2) * (t / n) = (b / σ ^ 2 - 1 / 2) * h ^ 2 := by rw [hh, mul_pow, hdt2]; field_simp
  have hm := crr_mean_error h0 hγ hs' (p := p) (by rw [hp, hu, hd, hbh])
  have hμ : |(b / σ ^ 2 - 1 / 2) * h ^ 2| ≤ γ * h ^ 2 := by
    rw [abs_mul, abs_of_nonneg (sq_nonneg h)]
    refine mul_le_mul_of_nonneg_right ?_ (sq_nonneg h)
    rw [hγ, abs_le]; constructor <;> linarith [le_abs_self (b / σ ^ 2), neg_abs_le (b / σ ^ 2)]
  obtain ⟨q0, q1, q2, q3, q4⟩ := crr_moments h0 hγ2 hs' hp0 hp1 hμ hm rfl
  have key := total_error (Q := 19 / 24 * h ^ 4) hV hS hK hu hd hp0 hp1 (exp_pos _).le h0 hn q0 q1 q2 q3 q4 (by ring)
  rw [← hμh, exact_bsPut hS hK ht.le hn, exp_div_pow _ _ hn.ne'] at key
  refine key.trans ?_
  rw [mul_assoc (K * exp (-r * t))]
  refine mul_le_mul_of_nonneg_left ?_ (by positivity)
  have hst : √(t / n) * √n = √t := by rw [← sqrt_mul (by positivity), div_mul_cancel₀ _ hn'.ne']
  have e1 : σ * √t = h * √n := by rw [hh, mul_assoc, hst]
  have e2 : θ * √t = γ * (h * √n) := by rw [← hγθ, mul_assoc, e1]
  rw [e1, e2]
  exact crr_arith h0 hγ2 hs' hn

end Verif
