import Verif.Lemmas.AmericanValue
import Verif.Lemmas.TianRate

/-!
Error of a block of lattice steps for the three binomial lattices, on arbitrary bounded Lipschitz functions.
-/
namespace Verif
open Real MeasureTheory ProbabilityTheory Spec Set _root_.Verif.Tree

theorem jr_block {t r b σ : ℝ} (ht : 0 < t) (hr : 0 ≤ r) (hσ : 0 < σ) {n : ℕ} (hn : 0 < n) (f : ℝ → ℝ) (hf : Nice f)
    (i : ℕ) (hi : i ≤ n) (y : ℝ) :
    |(opL (exp (-r * (t / n))) (1 / 2) ((b - σ ^ 2 / 2) * (t / n) + σ * √(t / n))
        ((b - σ ^ 2 / 2) * (t / n) - σ * √(t / n)))^[i] f y - (opBS r b σ (t / n))^[i] f y|
      ≤ 9 / 2 * (σ * √(t / n)) := by
  have hn' : (0 : ℝ) < n := by exact_mod_cast hn
  have hdt : 0 < t / n := by positivity
  unfold opBS
  have h0 : 0 < σ * √(t / n) := by positivity
  have hD : exp (-r * (t / n)) ≤ 1 := by rw [exp_le_one_iff]; nlinarith
  generalize σ * √(t / n) = h at *
  generalize (b - σ ^ 2 / 2) * (t / n) = μ at *
  have key := block_moments (M0 := h) (M1 := 0) (M2 := 0) (M3 := 0) (M4 := h ^ 4) (Q := h ^ 4 / 6) (p := 1 / 2)
    (x := μ + h) (x' := μ - h) (μ := μ) hf (exp_pos (-r * (t / n))).le hD (by norm_num) (by norm_num) h0
    (by
      rw [show μ + h - μ = h by ring, show μ - h - μ = -h by ring, abs_neg, abs_of_pos h0]
      linarith)
    (by ring_nf; simp) (by ring_nf; simp) (by ring_nf; simp) (by ring_nf; simp) (by ring) hi y
  refine key.trans (le_of_eq ?_)
  field_simp; ring

theorem crr_block {t r b σ : ℝ} (ht : 0 < t) (hr : 0 ≤ r) (hσ : 0 < σ) {n : ℕ} (hn : 0 < n)
    {θ : ℝ} (hθ : θ = (|b| + σ ^ 2 / 2) / σ) (hs : θ * √(t / n) ≤ 1) {p : ℝ}
    (hp : p = (exp (b * (t / n)) - exp (-(σ * √(t / n)))) / (exp (σ * √(t / n)) - exp (-(σ * √(t / n)))))
    (hp0 : 0 ≤ p) (hp1 : p ≤ 1) (f : ℝ → ℝ) (hf : Nice f) (i : ℕ) (hi : i ≤ n) (y : ℝ) :
    |(opL (exp (-r * (t / n))) p (σ * √(t / n)) (-(σ * √(t / n))))^[i] f y - (opBS r b σ (t / n))^[i] f y|
      ≤ σ * √(t / n) * (15 + 31 * (θ * √t) * (1 + σ * √t)) := by
  have hn' : (0 : ℝ) < n := by exact_mod_cast hn
  have hdt : 0 < t / n := by positivity
  have hD : exp (-r * (t / n)) ≤ 1 := by rw [exp_le_one_iff]; nlinarith
  have hdt2 : √(t / n) ^ 2 = t / n := sq_sqrt hdt.le
  have hsd : 0 < √(t / n) := sqrt_pos.2 hdt
  set γ := |b / σ ^ 2| + 1 / 2 with hγ
  have hγθ : γ * σ = θ := by
    rw [hγ, hθ, abs_div, abs_of_pos (pow_pos hσ 2)]; field_simp
  set h := σ * √(t / n) with hh
  have h0 : 0 < h := by positivity
  have hs' : γ * h ≤ 1 := by rw [hh, ← mul_assoc, hγθ]; exact hs
  have hγ2 : 1 / 2 ≤ γ := by have := abs_nonneg (b / σ ^ 2); linarith
  have hbh : b * (t / n) = b / σ ^ 2 * h ^ 2 := by rw [hh, mul_pow, hdt2]; field_simp
  have hμh : (b - σ ^ 2 / 2) * (t / n) = (b / σ ^ 2 - 1 / 2) * h ^ 2 := by rw [hh, mul_pow, hdt2]; field_simp
  have hm := crr_mean_error h0 hγ hs' (p := p) (by rw [hp, hbh])
  have hμ : |(b / σ ^ 2 - 1 / 2) * h ^ 2| ≤ γ * h ^ 2 := by
    rw [abs_mul, abs_of_nonneg (sq_nonneg h)]
    refine mul_le_mul_of_nonneg_right ?_ (sq_nonneg h)
    rw [hγ, abs_le]; constructor <;> linarith [le_abs_self (b / σ ^ 2), neg_abs_le (b / σ ^ 2)]
  obtain ⟨q0, q1, q2, q3, q4⟩ := crr_moments h0 hγ2 hs' hp0 hp1 hμ hm rfl
  have key := block_moments (Q := 19 / 24 * h ^ 4) hf (exp_pos (-r * (t / n))).le hD hp0 hp1 h0 q0 q1 q2 q3 q4
    (by ring) hi y
  unfold opBS
  rw [hμh]
  refine key.trans ?_
  have hst : √(t / n) * √n = √t := by rw [← sqrt_mul (by positivity), div_mul_cancel₀ _ hn'.ne']
  have e1 : σ * √t = h * √n := by rw [hh, mul_assoc, hst]
  have e2 : θ * √t = γ * (h * √n) := by rw [← hγθ, mul_assoc, e1]
  rw [e1, e2]
  clear_value h γ
  clear key hm hμ q0 q1 q2 q3 q4 e1 e2 hμh hbh
  have hnn : √(n : ℝ) ^ 2 = n := sq_sqrt hn'.le
  have hq0 : 0 ≤ √(n : ℝ) := sqrt_nonneg _
  generalize √(n : ℝ) = q at *
  rw [← hnn]
  have e : 2 * h + h + q ^ 2 * (2 * γ ^ 2 * h ^ 4) + 2 * q * (3 / 4 * (9 * γ ^ 2 * h ^ 4) / h)
      + 2 * q * (5 / 12 * (20 * γ * h ^ 4) / h ^ 2) + 3 * (5 * (19 / 24 * h ^ 4) / h ^ 3)
      = h * (119 / 8 + 2 * (γ * h) * γ * (h * q) ^ 2 + 27 / 2 * (γ * h) * (γ * (h * q)) + 50 / 3 * (γ * (h * q))) := by
    field_simp; ring
  rw [e]
  refine mul_le_mul_of_nonneg_left ?_ h0.le
  have hx : 0 ≤ h * q := by positivity
  generalize h * q = x at *
  have hγ0 : 0 < γ := by linarith
  have a1 : γ * h * (γ * x ^ 2) ≤ 1 * (γ * x ^ 2) := mul_le_mul_of_nonneg_right hs' (by positivity)
  have a2 : γ * h * (γ * x) ≤ 1 * (γ * x) := mul_le_mul_of_nonneg_right hs' (by positivity)
  have a3 : 0 ≤ γ * x := by positivity
  have a4 : 0 ≤ γ * x ^ 2 := by positivity
  nlinarith

theorem tian_block_arith {h : ℝ} (h0 : 0 < h) (hh : h ≤ 1 / 2) (n : ℕ) :
    7 / 2 * h + n * (36 * h ^ 4) + 2 * √n * (99 * h ^ 3) + 2 * √n * (90 * h ^ 2) + 3 * (30 * h)
      ≤ h * (94 + 279 * (h * √n) + 18 * (h * √n) ^ 2) := by
  have hnn : √(n : ℝ) ^ 2 = n := sq_sqrt (by positivity)
  have hq : 0 ≤ √(n : ℝ) := sqrt_nonneg _
  generalize √(n : ℝ) = q at *
  rw [← hnn]
  have e : 7 / 2 * h + q ^ 2 * (36 * h ^ 4) + 2 * q * (99 * h ^ 3) + 2 * q * (90 * h ^ 2) + 3 * (30 * h)
      = h * (187 / 2 + 36 * (h * (h * q) ^ 2) + 198 * (h * (h * q)) + 180 * (h * q)) := by ring
  rw [e]
  refine mul_le_mul_of_nonneg_left ?_ h0.le
  have hx : 0 ≤ h * q := by positivity
  generalize h * q = x at *
  have a1 : h * x ^ 2 ≤ 1 / 2 * x ^ 2 := mul_le_mul_of_nonneg_right hh (sq_nonneg x)
  have a2 : h * x ≤ 1 / 2 * x := mul_le_mul_of_nonneg_right hh hx
  linarith

theorem tian_combination {f : ℝ → ℝ} (hf : Nice f) {s : ℝ} (hs : 0 < s) (w : ℝ) :
    |smoothD He4 4 s f w - 6 * smoothD He3 3 s f w + 11 * smoothD He2 2 s f w - 6 * smoothD He1 1 s f w|
      ≤ 6 + 33 / 2 * (1 / s) + 15 * (1 / s ^ 2) + 5 * (1 / s ^ 3) := by
  have b1 := abs_le.1 (hf.abs_deriv1 hs w)
  have b2 := abs_le.1 (hf.abs_deriv2 hs w)
  have b3 := abs_le.1 (hf.abs_deriv3 hs w)
  have b4 := abs_le.1 (hf.abs_deriv4 hs w)
  have d1 : 3 / 2 / s = 3 / 2 * (1 / s) := by ring
  have d2 : 5 / 2 / s ^ 2 = 5 / 2 * (1 / s ^ 2) := by ring
  have d3 : 5 / s ^ 3 = 5 * (1 / s ^ 3) := by ring
  rw [d1] at b2
  rw [d2] at b3
  rw [d3] at b4
  rw [abs_le]
  constructor <;> linarith [b1.1, b1.2, b2.1, b2.2, b3.1, b3.2, b4.1, b4.2]

set_option maxHeartbeats 1000000 in
theorem tian_block {t r b σ : ℝ} (ht : 0 < t) (hr : 0 ≤ r) (hσ : 0 < σ) {n : ℕ} (hn : 0 < n)
    (hs : σ ^ 2 * (t / n) ≤ 1 / 5) {M W u d p : ℝ} (hM : M = exp (b * (t / n))) (hW : W = exp (σ ^ 2 * (t / n)))
    (hu : u = M * W / 2 * (W + 1 + √(W * W + 2 * W - 3))) (hd : d = M * W / 2 * (W + 1 - √(W * W + 2 * W - 3)))
    (hp : p = (M - d) / (u - d)) (hp0 : 0 ≤ p) (hp1 : p ≤ 1) (f : ℝ → ℝ) (hf : Nice f) (i : ℕ) (hi : i ≤ n) (y : ℝ) :
    |(opL (exp (-r * (t / n))) p (log u) (log d))^[i] f y - (opBS r b σ (t / n))^[i] f y|
      ≤ σ * √(t / n) * (94 + 279 * (σ * √t) + 18 * (σ * √t) ^ 2) := by
  have hn' : (0 : ℝ) < n := by exact_mod_cast hn
  have hdt : 0 < t / n := by positivity
  have hD : exp (-r * (t / n)) ≤ 1 := by rw [exp_le_one_iff]; nlinarith
  have hdt2 : √(t / n) ^ 2 = t / n := sq_sqrt hdt.le
  set h := σ * √(t / n) with hh
  have h0 : 0 < h := by positivity
  have hh2 : h ^ 2 = σ ^ 2 * (t / n) := by rw [hh, mul_pow, hdt2]
  have hh5 : h ^ 2 ≤ 1 / 5 := by rw [hh2]; exact hs
  have hhalf : h ≤ 1 / 2 := by nlinarith
  rw [← hh2] at hW
  have hMpos : 0 < M := by rw [hM]; exact exp_pos _
  obtain ⟨w, hw⟩ : ∃ w, W = 1 + w := ⟨W - 1, by ring⟩
  have hw0 : 0 < w := by
    have := add_one_lt_exp (by positivity : h ^ 2 ≠ 0)
    rw [← hW, hw] at this
    nlinarith
  have hw1 : w ≤ 6 / 5 * h ^ 2 := by
    have hq : |h ^ 2| ≤ 1 := by rw [abs_of_nonneg (sq_nonneg h)]; linarith
    have := (abs_le.1 (abs_exp_sub_one_sub_id_le hq)).2
    rw [← hW, hw] at this
    nlinarith [sq_nonneg h]
  have hw4 : w ≤ 1 / 4 := by linarith
  have hW1 : 1 < W := by linarith
  obtain ⟨g1, g2, g3⟩ := tian_aux hMpos hW1
  rw [← hu] at g3
  rw [← hd] at g1 g2
  have hupos : 0 < u := hMpos.trans g3
  have hsq : √(W * W + 2 * W - 3) ^ 2 = W * W + 2 * W - 3 := sq_sqrt (by nlinarith)
  have hsum : u / M + d / M = W * (W + 1) := by rw [hu, hd]; field_simp; ring
  have hprod : u / M * (d / M) = W ^ 2 := by
    have e : u / M * (d / M) = W ^ 2 / 4 * ((W + 1) ^ 2 - √(W * W + 2 * W - 3) ^ 2) := by rw [hu, hd]; field_simp; ring
    rw [e, hsq]; ring
  have hp' : p = (1 - d / M) / (u / M - d / M) := by
    have : u - d ≠ 0 := by linarith
    rw [hp, ← sub_div, div_div_eq_mul_div, sub_mul, one_mul, div_mul_cancel₀ _ hMpos.ne']
  obtain ⟨hd2, m1, m2, m3, m4⟩ := tian_moments hw hw0 hw4 ((div_lt_one hMpos).2 g2) ((one_lt_div hMpos).2 g3) hsum hprod hp'
  have hρ : 0 < u / M := div_pos hupos hMpos
  have hρ' : 0 < d / M := div_pos g1 hMpos
  set μ := (b - σ ^ 2 / 2) * (t / n) with hμ
  have hμ' : μ = b * (t / n) - h ^ 2 / 2 := by rw [hμ, hh2]; ring
  have lu : log u = b * (t / n) + log (u / M) := by rw [log_div hupos.ne' hMpos.ne', hM, log_exp]; ring
  have ld : log d = b * (t / n) + log (d / M) := by rw [log_div g1.ne' hMpos.ne', hM, log_exp]; ring
  have hq : 0 ≤ 1 - p := by linarith
  have hw2 : w ^ 2 ≤ 36 / 25 * h ^ 4 := by
    have := pow_le_pow_left₀ hw0.le hw1 2
    calc w ^ 2 ≤ (6 / 5 * h ^ 2) ^ 2 := this
      _ = _ := by ring
  -- first step
  have hM0 : p * |log u - μ| + (1 - p) * |log d - μ| ≤ 5 / 2 * h := by
    have := tian_first hp0 hp1 h0 hhalf hw1 ((one_lt_div hMpos).2 g3) hd2 m2
    rw [lu, ld, hμ', show b * (t / n) + log (u / M) - (b * (t / n) - h ^ 2 / 2) = log (u / M) + h ^ 2 / 2 by ring,
      show b * (t / n) + log (d / M) - (b * (t / n) - h ^ 2 / 2) = log (d / M) + h ^ 2 / 2 by ring]
    exact this
  have key := block_error (h := h) (μ := μ) (E0 := 7 / 2 * h) (A0 := 36 * h ^ 4) (A1 := 99 * h ^ 3)
    (A2 := 90 * h ^ 2) (A3 := 30 * h) (x := log u) (x' := log d) hf (exp_pos (-r * (t / n))).le hD hp0 hp1
    (by positivity) (by positivity) (by positivity)
    (fun y => (first_stepF hf hp0 hp1 h0.le y).trans (by linarith))
    (fun m hm y => by
      have hm' : (0 : ℝ) < m := by exact_mod_cast hm
      obtain ⟨e1, e2, e3⟩ := inv_powers h0 hm rfl
      set s := h * √(m : ℝ) with hsdef
      have hs0 : 0 < s := by positivity
      have key := one_step_ratio (f := smooth s f) (hf.deriv1 hs0) (hf.deriv2 hs0) (hf.deriv3 hs0) (hf.deriv4 hs0)
        (B0 := 1) (fun w => by rw [abs_of_nonneg ((hf.smooth s).nonneg _)]; exact (hf.smooth s).le_one _)
        (tian_combination hf hs0) hp0 hp1
        (y + m * μ + b * (t / n)) h hW hw hw0.le hw4 hρ hρ' m1 m2 m3 m4
      rw [exactF_succ hf]
      unfold exactF
      rw [← hsdef]
      have eL : p * smooth s f (y + log u + m * μ) + (1 - p) * smooth s f (y + log d + m * μ)
          - ∫ z, smooth s f (y + μ + h * z + m * μ) ∂gaussianReal 0 1
          = p * smooth s f (y + m * μ + b * (t / n) + log (u / M))
            + (1 - p) * smooth s f (y + m * μ + b * (t / n) + log (d / M))
            - ∫ z, smooth s f (y + m * μ + b * (t / n) + (h * z - h ^ 2 / 2)) ∂gaussianReal 0 1 := by
        have a1 : y + log u + m * μ = y + m * μ + b * (t / n) + log (u / M) := by rw [lu]; ring
        have a2 : y + log d + m * μ = y + m * μ + b * (t / n) + log (d / M) := by rw [ld]; ring
        have a3 : (fun z => smooth s f (y + μ + h * z + m * μ))
            = fun z => smooth s f (y + m * μ + b * (t / n) + (h * z - h ^ 2 / 2)) := by
          funext z; congr 1; linear_combination hμ'
        rw [a1, a2, a3]
      rw [eL]
      refine key.trans ?_
      rw [e1, e2, e3]
      have hB : 0 ≤ 6 + 33 / 2 * (1 / h * (1 / √m)) + 15 * (1 / h ^ 2 * (1 / m))
          + 5 * (1 / h ^ 3 * (1 / (m * √m))) := by positivity
      calc _ ≤ 25 / 6 * (36 / 25 * h ^ 4) * (6 + 33 / 2 * (1 / h * (1 / √m)) + 15 * (1 / h ^ 2 * (1 / m))
            + 5 * (1 / h ^ 3 * (1 / (m * √m)))) :=
            mul_le_mul_of_nonneg_right (mul_le_mul_of_nonneg_left hw2 (by norm_num)) hB
        _ = _ := by
            generalize 1 / √(m : ℝ) = q1
            generalize 1 / (m : ℝ) = q2
            generalize 1 / ((m : ℝ) * √m) = q3
            field_simp; ring) hi y
  refine key.trans ?_
  have e1 : σ * √t = h * √n := by rw [hh, mul_assoc, ← sqrt_mul (by positivity), div_mul_cancel₀ _ hn'.ne']
  rw [e1]
  exact tian_block_arith h0 hhalf n

end Verif
