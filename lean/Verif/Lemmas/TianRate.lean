import Verif.Lemmas.LatticeRate

/-!
Distance between the Tian lattice and the Black–Scholes value.  Tian's factors match the first three moments of the
price ratio, so Taylor's formula is used in the ratio rather than in its logarithm.
-/
namespace Verif
open Real MeasureTheory ProbabilityTheory Spec Set _root_.Verif.Tree

section ratio
variable {f f1 f2 f3 f4 : ℝ → ℝ} {c : ℝ}

/-- Taylor's formula for `ρ ↦ f (c + log ρ)` at `ρ = 1`. -/
theorem taylor_ratio (h1 : ∀ w, HasDerivAt f (f1 w) w)
    (h2 : ∀ w, HasDerivAt f1 (f2 w) w) (h3 : ∀ w, HasDerivAt f2 (f3 w) w) (h4 : ∀ w, HasDerivAt f3 (f4 w) w) {B : ℝ}
    (hB : ∀ w, |f4 w - 6 * f3 w + 11 * f2 w - 6 * f1 w| ≤ B) {ρ : ℝ} (hρ : 0 < ρ) :
    |f (c + log ρ) - (f c + f1 c * (ρ - 1) + (f2 c - f1 c) * (ρ - 1) ^ 2 / 2
        + (f3 c - 3 * f2 c + 2 * f1 c) * (ρ - 1) ^ 3 / 6)| ≤ B / 24 * ((ρ - 1) ^ 4 + (1 - 1 / ρ) ^ 4) := by
  have hB0 : 0 ≤ B := (abs_nonneg _).trans (hB 0)
  have hpos : ∀ w ∈ uIcc 1 ρ, 0 < w := fun w hw => (lt_min one_pos hρ).trans_le hw.1
  have hl : ∀ w, 0 < w → HasDerivAt (fun w => c + log w) (1 / w) w := fun w hw => by
    simpa using (hasDerivAt_log hw.ne').const_add c
  have hi : ∀ w : ℝ, 0 < w → ∀ k : ℕ, HasDerivAt (fun w : ℝ => w ^ k) (k * w ^ (k - 1)) w := fun w _ k => hasDerivAt_pow k w
  have key := taylor4 (c := 1) (u := ρ) (f := fun w => f (c + log w)) (f1 := fun w => f1 (c + log w) / w ^ 1)
    (f2 := fun w => (f2 (c + log w) - f1 (c + log w)) / w ^ 2)
    (f3 := fun w => (f3 (c + log w) - 3 * f2 (c + log w) + 2 * f1 (c + log w)) / w ^ 3)
    (f4 := fun w => (f4 (c + log w) - 6 * f3 (c + log w) + 11 * f2 (c + log w) - 6 * f1 (c + log w)) / w ^ 4)
    (B := B * (1 + 1 / ρ ^ 4))
    (fun w hw => ((h1 _).comp w (hl w (hpos w hw))).congr_deriv (by have := hpos w hw; field_simp))
    (fun w hw => by
      have h0 := hpos w hw
      exact (((h2 _).comp w (hl w h0)).div (hi w h0 1) (by positivity)).congr_deriv (by
        simp only [Function.comp]; field_simp; push_cast; ring))
    (fun w hw => by
      have h0 := hpos w hw
      exact ((((h3 _).comp w (hl w h0)).sub ((h2 _).comp w (hl w h0))).div (hi w h0 2) (by positivity)).congr_deriv (by
        simp only [Function.comp, Pi.sub_apply]; field_simp; push_cast; ring))
    (fun w hw => by
      have h0 := hpos w hw
      exact (((((h4 _).comp w (hl w h0)).sub (((h3 _).comp w (hl w h0)).const_mul 3)).add
        (((h2 _).comp w (hl w h0)).const_mul 2)).div (hi w h0 3) (by positivity)).congr_deriv (by
        simp only [Function.comp, Pi.sub_apply, Pi.add_apply]; field_simp; push_cast; ring))
    (fun w hw => by
      have h0 := hpos w hw
      rw [abs_div, abs_of_pos (pow_pos h0 4), div_eq_mul_one_div]
      refine mul_le_mul (hB _) ?_ (by positivity) hB0
      have hw1 : min 1 ρ ≤ w := hw.1
      rcases le_total 1 ρ with h | h
      · rw [min_eq_left h] at hw1
        have : 1 / w ^ 4 ≤ 1 := by rw [div_le_one (by positivity)]; exact one_le_pow₀ hw1
        have : 0 < 1 / ρ ^ 4 := by positivity
        linarith
      · rw [min_eq_right h] at hw1
        have : 1 / w ^ 4 ≤ 1 / ρ ^ 4 := one_div_le_one_div_of_le (by positivity) (pow_le_pow_left₀ hρ.le hw1 4)
        linarith)
  simp only [log_one, add_zero, one_pow, div_one] at key
  refine key.trans (le_of_eq ?_)
  field_simp

end ratio

theorem gauss_exp (k h : ℝ) : ∫ z, exp (k * (h * z - h ^ 2 / 2)) ∂gaussianReal 0 1
    = exp ((k ^ 2 - k) / 2 * h ^ 2) := by
  have hm := mgf_gaussianReal (p := gaussianReal 0 1) (X := id) (μ := 0) (v := 1) (by simp) (k * h)
  simp only [mgf, id] at hm
  have e : ∀ z, exp (k * (h * z - h ^ 2 / 2)) = exp (-(k * h ^ 2 / 2)) * exp (k * h * z) := fun z => by
    rw [← exp_add]; congr 1; ring
  simp only [e]
  rw [integral_const_mul, hm, ← exp_add]
  congr 1; simp; ring

theorem gauss_exp_int (k h : ℝ) : Integrable (fun z => exp (k * (h * z - h ^ 2 / 2))) (gaussianReal 0 1) := by
  have e : ∀ z, exp (k * (h * z - h ^ 2 / 2)) = exp (-(k * h ^ 2 / 2)) * exp (k * h * z) := fun z => by
    rw [← exp_add]; congr 1; ring
  simp only [e]
  exact (integrable_exp_mul_gaussianReal (μ := 0) (v := 1) (k * h)).const_mul _

theorem gauss_comb (h : ℝ) (L : List (ℝ × ℝ)) :
    Integrable (fun z => (L.map fun q => q.1 * exp (q.2 * (h * z - h ^ 2 / 2))).sum) (gaussianReal 0 1) ∧
    ∫ z, (L.map fun q => q.1 * exp (q.2 * (h * z - h ^ 2 / 2))).sum ∂gaussianReal 0 1
      = (L.map fun q => q.1 * exp ((q.2 ^ 2 - q.2) / 2 * h ^ 2)).sum := by
  induction L with
  | nil => simp
  | cons q L ih =>
    simp only [List.map_cons, List.sum_cons]
    refine ⟨((gauss_exp_int q.2 h).const_mul _).add ih.1, ?_⟩
    rw [integral_add ((gauss_exp_int q.2 h).const_mul _) ih.1, ih.2, integral_const_mul, gauss_exp]

theorem exp_two_mul' (x : ℝ) : exp (2 * x) = exp x ^ 2 := by rw [← exp_nat_mul]; norm_num
theorem exp_three_mul' (x : ℝ) : exp (3 * x) = exp x ^ 3 := by rw [← exp_nat_mul]; norm_num
theorem exp_four_mul' (x : ℝ) : exp (4 * x) = exp x ^ 4 := by rw [← exp_nat_mul]; norm_num

/-- Moments of the lognormal ratio up to order three. -/
theorem gauss_moments (h k0 k1 k2 k3 : ℝ) {V w : ℝ} (hV : V = exp (h ^ 2)) (hw : V = 1 + w) :
    Integrable (fun z => k0 + k1 * (exp (h * z - h ^ 2 / 2) - 1) + k2 * (exp (h * z - h ^ 2 / 2) - 1) ^ 2 / 2
      + k3 * (exp (h * z - h ^ 2 / 2) - 1) ^ 3 / 6) (gaussianReal 0 1) ∧
    ∫ z, (k0 + k1 * (exp (h * z - h ^ 2 / 2) - 1) + k2 * (exp (h * z - h ^ 2 / 2) - 1) ^ 2 / 2
      + k3 * (exp (h * z - h ^ 2 / 2) - 1) ^ 3 / 6) ∂gaussianReal 0 1
      = k0 + k2 * w / 2 + k3 * (w ^ 2 * (w + 3)) / 6 := by
  obtain ⟨i1, i2⟩ := gauss_comb h [(k0 - k1 + k2 / 2 - k3 / 6, 0), (k1 - k2 + k3 / 2, 1), (k2 / 2 - k3 / 2, 2), (k3 / 6, 3)]
  have e : ∀ z, (List.map (fun q : ℝ × ℝ => q.1 * exp (q.2 * (h * z - h ^ 2 / 2)))
      [(k0 - k1 + k2 / 2 - k3 / 6, 0), (k1 - k2 + k3 / 2, 1), (k2 / 2 - k3 / 2, 2), (k3 / 6, 3)]).sum
      = k0 + k1 * (exp (h * z - h ^ 2 / 2) - 1) + k2 * (exp (h * z - h ^ 2 / 2) - 1) ^ 2 / 2
      + k3 * (exp (h * z - h ^ 2 / 2) - 1) ^ 3 / 6 := by
    intro z
    simp only [List.map_cons, List.map_nil, List.sum_cons, List.sum_nil, exp_two_mul', exp_three_mul', zero_mul, exp_zero,
      one_mul]
    ring
  simp only [e] at i1 i2
  refine ⟨i1, i2.trans ?_⟩
  simp only [List.map_cons, List.map_nil, List.sum_cons, List.sum_nil]
  norm_num
  rw [exp_three_mul', ← hV, hw]
  ring

/-- The remainder term under the lognormal law. -/
theorem gauss_remainder (h : ℝ) {V : ℝ} (hV : V = exp (h ^ 2)) :
    Integrable (fun z => (exp (h * z - h ^ 2 / 2) - 1) ^ 4 + (1 - 1 / exp (h * z - h ^ 2 / 2)) ^ 4) (gaussianReal 0 1) ∧
    ∫ z, ((exp (h * z - h ^ 2 / 2) - 1) ^ 4 + (1 - 1 / exp (h * z - h ^ 2 / 2)) ^ 4) ∂gaussianReal 0 1
      = (V ^ 6 - 4 * V ^ 3 + 6 * V - 3) + (V ^ 10 - 4 * V ^ 6 + 6 * V ^ 3 - 4 * V + 1) := by
  obtain ⟨i1, i2⟩ := gauss_comb h [(1, 4), (-4, 3), (6, 2), (-4, 1), (2, 0), (-4, -1), (6, -2), (-4, -3), (1, -4)]
  have e : ∀ z, (List.map (fun q : ℝ × ℝ => q.1 * exp (q.2 * (h * z - h ^ 2 / 2)))
      [(1, 4), (-4, 3), (6, 2), (-4, 1), (2, 0), (-4, -1), (6, -2), (-4, -3), (1, -4)]).sum
      = (exp (h * z - h ^ 2 / 2) - 1) ^ 4 + (1 - 1 / exp (h * z - h ^ 2 / 2)) ^ 4 := by
    intro z
    simp only [List.map_cons, List.map_nil, List.sum_cons, List.sum_nil, exp_two_mul', exp_three_mul', exp_four_mul',
      zero_mul, exp_zero, one_mul, neg_mul, exp_neg]
    have := (exp_pos (h * z - h ^ 2 / 2)).ne'
    field_simp
    ring
  simp only [e] at i1 i2
  refine ⟨i1, i2.trans ?_⟩
  simp only [List.map_cons, List.map_nil, List.sum_cons, List.sum_nil]
  have e6 : exp (6 * h ^ 2) = exp (h ^ 2) ^ 6 := by rw [← exp_nat_mul]; norm_num
  have e10 : exp (10 * h ^ 2) = exp (h ^ 2) ^ 10 := by rw [← exp_nat_mul]; norm_num
  norm_num
  rw [exp_three_mul', e6, e10, ← hV]
  ring

theorem remainder_le {w : ℝ} (h0 : 0 ≤ w) (h1 : w ≤ 1 / 4) :
    ((1 + w) ^ 6 - 4 * (1 + w) ^ 3 + 6 * (1 + w) - 3)
      + ((1 + w) ^ 10 - 4 * (1 + w) ^ 6 + 6 * (1 + w) ^ 3 - 4 * (1 + w) + 1) ≤ 38 * w ^ 2 := by
  have e : ((1 + w) ^ 6 - 4 * (1 + w) ^ 3 + 6 * (1 + w) - 3)
      + ((1 + w) ^ 10 - 4 * (1 + w) ^ 6 + 6 * (1 + w) ^ 3 - 4 * (1 + w) + 1)
      = w ^ 2 * (6 + 62 * w + 165 * w ^ 2 + 234 * w ^ 3 + 207 * w ^ 4 + 120 * w ^ 5 + 45 * w ^ 6 + 10 * w ^ 7 + w ^ 8) := by
    ring
  have p : ∀ k : ℕ, w ^ k ≤ (1 / 4) ^ k := fun k => pow_le_pow_left₀ h0 h1 k
  have q : 6 + 62 * w + 165 * w ^ 2 + 234 * w ^ 3 + 207 * w ^ 4 + 120 * w ^ 5 + 45 * w ^ 6 + 10 * w ^ 7 + w ^ 8 ≤ 38 := by
    have p2 := p 2; have p3 := p 3; have p4 := p 4; have p5 := p 5; have p6 := p 6; have p7 := p 7; have p8 := p 8
    norm_num at p2 p3 p4 p5 p6 p7 p8
    linarith
  rw [e]
  nlinarith [sq_nonneg w]

/-- One step of a lattice that matches three moments of the lognormal ratio. -/
theorem one_step_ratio {f f1 f2 f3 f4 : ℝ → ℝ} {B0 B : ℝ} (h1 : ∀ w, HasDerivAt f (f1 w) w)
    (h2 : ∀ w, HasDerivAt f1 (f2 w) w) (h3 : ∀ w, HasDerivAt f2 (f3 w) w) (h4 : ∀ w, HasDerivAt f3 (f4 w) w)
    (hB0 : ∀ w, |f w| ≤ B0) (hB : ∀ w, |f4 w - 6 * f3 w + 11 * f2 w - 6 * f1 w| ≤ B) {p : ℝ} (hp0 : 0 ≤ p)
    (hp1 : p ≤ 1) (c h : ℝ) {V w ρ ρ' : ℝ} (hV : V = exp (h ^ 2)) (hw : V = 1 + w) (hw0 : 0 ≤ w) (hw4 : w ≤ 1 / 4)
    (hρ : 0 < ρ) (hρ' : 0 < ρ') (m1 : p * (ρ - 1) + (1 - p) * (ρ' - 1) = 0)
    (m2 : p * (ρ - 1) ^ 2 + (1 - p) * (ρ' - 1) ^ 2 = w)
    (m3 : p * (ρ - 1) ^ 3 + (1 - p) * (ρ' - 1) ^ 3 = w ^ 2 * (w + 3))
    (m4 : p * ((ρ - 1) ^ 4 + (1 - 1 / ρ) ^ 4) + (1 - p) * ((ρ' - 1) ^ 4 + (1 - 1 / ρ') ^ 4) ≤ 62 * w ^ 2) :
    |p * f (c + log ρ) + (1 - p) * f (c + log ρ') - ∫ z, f (c + (h * z - h ^ 2 / 2)) ∂gaussianReal 0 1|
      ≤ 25 / 6 * w ^ 2 * B := by
  have hBn : 0 ≤ B := (abs_nonneg _).trans (hB 0)
  have hcont : Continuous f := continuous_iff_continuousAt.2 fun w => (h1 w).continuousAt
  have hint : Integrable (fun z => f (c + (h * z - h ^ 2 / 2))) (gaussianReal 0 1) :=
    Integrable.mono' (integrable_const B0) (by fun_prop) (.of_forall fun z => hB0 _)
  obtain ⟨k1, k2, k3, tay⟩ : ∃ k1 k2 k3 : ℝ, ∀ r : ℝ, 0 < r → |f (c + log r) - (f c + k1 * (r - 1)
      + k2 * (r - 1) ^ 2 / 2 + k3 * (r - 1) ^ 3 / 6)| ≤ B / 24 * ((r - 1) ^ 4 + (1 - 1 / r) ^ 4) :=
    ⟨_, _, _, fun r hr => taylor_ratio (c := c) h1 h2 h3 h4 hB hr⟩
  obtain ⟨g1, g2⟩ := gauss_moments h (f c) k1 k2 k3 hV hw
  obtain ⟨g3, g4⟩ := gauss_remainder h hV
  have hG : |(∫ z, f (c + (h * z - h ^ 2 / 2)) ∂gaussianReal 0 1) - (f c + k2 * w / 2 + k3 * (w ^ 2 * (w + 3)) / 6)|
      ≤ B / 24 * (38 * w ^ 2) := by
    rw [← g2, ← integral_sub hint g1]
    have hm := norm_integral_le_of_norm_le (μ := gaussianReal 0 1) (g3.const_mul (B / 24)) (.of_forall fun z => by
      have := tay _ (exp_pos (h * z - h ^ 2 / 2))
      rw [log_exp] at this
      rwa [norm_eq_abs])
    rw [integral_const_mul, g4, norm_eq_abs, hw] at hm
    exact hm.trans (mul_le_mul_of_nonneg_left (remainder_le hw0 hw4) (by positivity))
  have hq : 0 ≤ 1 - p := by linarith
  have ha := tay _ hρ
  have ha' := tay _ hρ'
  have hL : |p * f (c + log ρ) + (1 - p) * f (c + log ρ') - (f c + k2 * w / 2 + k3 * (w ^ 2 * (w + 3)) / 6)|
      ≤ B / 24 * (62 * w ^ 2) := by
    calc _ = |p * (f (c + log ρ) - (f c + k1 * (ρ - 1) + k2 * (ρ - 1) ^ 2 / 2 + k3 * (ρ - 1) ^ 3 / 6))
          + (1 - p) * (f (c + log ρ') - (f c + k1 * (ρ' - 1) + k2 * (ρ' - 1) ^ 2 / 2 + k3 * (ρ' - 1) ^ 3 / 6))| := by
          congr 1
          linear_combination k1 * m1 + k2 / 2 * m2 + k3 / 6 * m3
      _ ≤ p * (B / 24 * ((ρ - 1) ^ 4 + (1 - 1 / ρ) ^ 4)) + (1 - p) * (B / 24 * ((ρ' - 1) ^ 4 + (1 - 1 / ρ') ^ 4)) := by
          refine (abs_add_le _ _).trans (add_le_add ?_ ?_) <;> rw [abs_mul]
          · rw [abs_of_nonneg hp0]; exact mul_le_mul_of_nonneg_left ha hp0
          · rw [abs_of_nonneg hq]; exact mul_le_mul_of_nonneg_left ha' hq
      _ = B / 24 * (p * ((ρ - 1) ^ 4 + (1 - 1 / ρ) ^ 4) + (1 - p) * ((ρ' - 1) ^ 4 + (1 - 1 / ρ') ^ 4)) := by ring
      _ ≤ _ := mul_le_mul_of_nonneg_left m4 (by positivity)
  have e : 25 / 6 * w ^ 2 * B = B / 24 * (62 * w ^ 2) + B / 24 * (38 * w ^ 2) := by ring
  rw [e]
  have := abs_sub (p * f (c + log ρ) + (1 - p) * f (c + log ρ') - (f c + k2 * w / 2 + k3 * (w ^ 2 * (w + 3)) / 6))
    ((∫ z, f (c + (h * z - h ^ 2 / 2)) ∂gaussianReal 0 1) - (f c + k2 * w / 2 + k3 * (w ^ 2 * (w + 3)) / 6))
  rw [sub_sub_sub_cancel_right] at this
  exact this.trans (add_le_add hL hG)

/-- Moments of the Tian lattice. -/
theorem tian_moments {V w ρ ρ' p : ℝ} (hw : V = 1 + w) (hw0 : 0 < w) (hw4 : w ≤ 1 / 4) (h1 : ρ' < 1) (h2 : 1 < ρ)
    (hsum : ρ + ρ' = V * (V + 1)) (hprod : ρ * ρ' = V ^ 2) (hp : p = (1 - ρ') / (ρ - ρ')) :
    1 / 2 ≤ ρ' ∧ p * (ρ - 1) + (1 - p) * (ρ' - 1) = 0 ∧ p * (ρ - 1) ^ 2 + (1 - p) * (ρ' - 1) ^ 2 = w ∧
    p * (ρ - 1) ^ 3 + (1 - p) * (ρ' - 1) ^ 3 = w ^ 2 * (w + 3) ∧
    p * ((ρ - 1) ^ 4 + (1 - 1 / ρ) ^ 4) + (1 - p) * ((ρ' - 1) ^ 4 + (1 - 1 / ρ') ^ 4) ≤ 62 * w ^ 2 := by
  obtain ⟨a, rfl⟩ : ∃ a, ρ = 1 + a := ⟨ρ - 1, by ring⟩
  obtain ⟨c, rfl⟩ : ∃ c, ρ' = 1 - c := ⟨1 - ρ', by ring⟩
  have ha : 0 < a := by linarith
  have hc : 0 < c := by linarith
  subst hw
  have hs : a - c = (3 + w) * w := by nlinarith
  have hp' : a * c = w := by nlinarith
  have hc2 : c ≤ 1 / 2 := by
    by_contra hcon
    push Not at hcon
    nlinarith
  have hac : a + c ≠ 0 := by positivity
  have hpe : p = c / (a + c) := by rw [hp]; congr 1 <;> ring
  have hq : 1 - p = a / (a + c) := by rw [hpe]; field_simp; ring
  have hp0 : 0 ≤ p := by rw [hpe]; positivity
  have hq0 : 0 ≤ 1 - p := by rw [hq]; positivity
  have sa : a ^ 2 = (3 + w) * w * a + w := by rw [← hs, ← hp']; ring
  have sc : (-c) ^ 2 = (3 + w) * w * (-c) + w := by rw [← hs, ← hp']; ring
  have m1 : p * a + (1 - p) * (-c) = 0 := by rw [hq, hpe]; field_simp; ring
  have m2 : p * a ^ 2 + (1 - p) * (-c) ^ 2 = w := by rw [sa, sc]; linear_combination (3 + w) * w * m1
  have m3 : p * a ^ 3 + (1 - p) * (-c) ^ 3 = w ^ 2 * (w + 3) := by
    have e1 : a ^ 3 = a * a ^ 2 := by ring
    have e2 : (-c) ^ 3 = (-c) * (-c) ^ 2 := by ring
    calc _ = p * (a * ((3 + w) * w * a + w)) + (1 - p) * ((-c) * ((3 + w) * w * (-c) + w)) := by rw [e1, e2, sa, sc]
      _ = (3 + w) * w * (p * a ^ 2 + (1 - p) * (-c) ^ 2) + w * (p * a + (1 - p) * (-c)) := by ring
      _ = _ := by rw [m1, m2]; ring
  have m4 : p * a ^ 4 + (1 - p) * (-c) ^ 4 = (3 + w) ^ 2 * w ^ 3 + w ^ 2 := by
    have e1 : a ^ 4 = a ^ 2 * a ^ 2 := by ring
    have e2 : (-c) ^ 4 = (-c) ^ 2 * (-c) ^ 2 := by ring
    calc _ = p * (a ^ 2 * ((3 + w) * w * a + w)) + (1 - p) * ((-c) ^ 2 * ((3 + w) * w * (-c) + w)) := by
          rw [e1, e2]; nth_rewrite 2 [sa]; nth_rewrite 2 [sc]; ring
      _ = (3 + w) * w * (p * a ^ 3 + (1 - p) * (-c) ^ 3) + w * (p * a ^ 2 + (1 - p) * (-c) ^ 2) := by ring
      _ = _ := by rw [m2, m3]; ring
  have ec : 1 - c - 1 = -c := by ring
  have ea : 1 + a - 1 = a := by ring
  rw [ec, ea]
  refine ⟨by linarith, m1, m2, m3, ?_⟩
  have r1 : (1 - 1 / (1 + a)) ^ 4 ≤ a ^ 4 := by
    have : 1 - 1 / (1 + a) = a / (1 + a) := by field_simp; ring
    rw [this]
    exact pow_le_pow_left₀ (by positivity) (div_le_self ha.le (by linarith)) 4
  have r2 : (1 - 1 / (1 - c)) ^ 4 ≤ 16 * (-c) ^ 4 := by
    have h1c : 0 < 1 - c := by linarith
    have : 1 - 1 / (1 - c) = -(c / (1 - c)) := by field_simp; ring
    rw [this, neg_pow, neg_pow c]
    have h3 : c / (1 - c) ≤ 2 * c := by rw [div_le_iff₀ h1c]; nlinarith
    have := pow_le_pow_left₀ (by positivity) h3 4
    norm_num at this ⊢
    nlinarith
  have a4 : 0 ≤ a ^ 4 := by positivity
  have t1 := mul_le_mul_of_nonneg_left r1 hp0
  have t2 := mul_le_mul_of_nonneg_left r2 hq0
  have t3 := mul_nonneg hp0 a4
  have hfin : 17 * ((3 + w) ^ 2 * w ^ 3 + w ^ 2) ≤ 62 * w ^ 2 := by
    have h1 : (3 + w) ^ 2 * w ≤ (3 + 1 / 4) ^ 2 * (1 / 4) :=
      mul_le_mul (pow_le_pow_left₀ (by positivity) (by linarith) 2) hw4 hw0.le (by positivity)
    have e : 17 * ((3 + w) ^ 2 * w ^ 3 + w ^ 2) = 17 * ((3 + w) ^ 2 * w + 1) * w ^ 2 := by ring
    rw [e]
    exact mul_le_mul_of_nonneg_right (by norm_num at h1 ⊢; linarith) (sq_nonneg w)
  linarith

theorem log_abs_le {ρ : ℝ} (h : 1 / 2 ≤ ρ) : |log ρ| ≤ 2 * |ρ - 1| := by
  have h0 : 0 < ρ := by linarith
  have h1 := log_le_sub_one_of_pos h0
  have h2 := one_sub_inv_le_log_of_pos h0
  have e : 1 - ρ⁻¹ = (ρ - 1) / ρ := by field_simp
  rw [e] at h2
  rw [abs_le]
  constructor
  · refine le_trans ?_ h2
    rw [le_div_iff₀ h0]
    rcases abs_cases (ρ - 1) with ⟨h, h'⟩ | ⟨h, h'⟩ <;> rw [h] <;> nlinarith
  · have := le_abs_self (ρ - 1); have := abs_nonneg (ρ - 1); linarith

/-- The first moment of the logarithm of a Tian step. -/
theorem tian_first {p h w ρ ρ' : ℝ} (hp0 : 0 ≤ p) (hp1 : p ≤ 1) (h0 : 0 < h) (hhalf : h ≤ 1 / 2)
    (hw1 : w ≤ 6 / 5 * h ^ 2) (h1 : 1 < ρ) (h2 : 1 / 2 ≤ ρ')
    (m2 : p * (ρ - 1) ^ 2 + (1 - p) * (ρ' - 1) ^ 2 = w) :
    p * |log ρ + h ^ 2 / 2| + (1 - p) * |log ρ' + h ^ 2 / 2| ≤ 5 / 2 * h := by
  have hq : 0 ≤ 1 - p := by linarith
  have h11 : 0 < 11 / 10 * h := by positivity
  have hb : ∀ v : ℝ, |v| ≤ (v ^ 2 / (11 / 10 * h) + 11 / 10 * h) / 2 := fun v => by
    have e : (v ^ 2 / (11 / 10 * h) + 11 / 10 * h) / 2 - |v| = (|v| - 11 / 10 * h) ^ 2 / (2 * (11 / 10 * h)) := by
      rw [sub_sq, sq_abs]; field_simp; ring
    have : 0 ≤ (|v| - 11 / 10 * h) ^ 2 / (2 * (11 / 10 * h)) := by positivity
    linarith
  have hroot : p * |ρ - 1| + (1 - p) * |ρ' - 1| ≤ 11 / 10 * h := by
    have t1 := mul_le_mul_of_nonneg_left (hb (ρ - 1)) hp0
    have t2 := mul_le_mul_of_nonneg_left (hb (ρ' - 1)) hq
    have e : p * (((ρ - 1) ^ 2 / (11 / 10 * h) + 11 / 10 * h) / 2)
        + (1 - p) * (((ρ' - 1) ^ 2 / (11 / 10 * h) + 11 / 10 * h) / 2) = (w / (11 / 10 * h) + 11 / 10 * h) / 2 := by
      rw [← m2]; ring
    have hwh : w / (11 / 10 * h) ≤ 11 / 10 * h := by
      rw [div_le_iff₀ h11]
      nlinarith [sq_nonneg h]
    linarith
  have q1 : |log ρ + h ^ 2 / 2| ≤ 2 * |ρ - 1| + h ^ 2 / 2 :=
    (abs_add_le _ _).trans (add_le_add (log_abs_le (by linarith)) (abs_of_nonneg (by positivity)).le)
  have q2 : |log ρ' + h ^ 2 / 2| ≤ 2 * |ρ' - 1| + h ^ 2 / 2 :=
    (abs_add_le _ _).trans (add_le_add (log_abs_le h2) (abs_of_nonneg (by positivity)).le)
  have t1 := mul_le_mul_of_nonneg_left q1 hp0
  have t2 := mul_le_mul_of_nonneg_left q2 hq
  have hh3 : h ^ 2 / 2 ≤ 1 / 4 * h := by nlinarith
  have e : p * (2 * |ρ - 1| + h ^ 2 / 2) + (1 - p) * (2 * |ρ' - 1| + h ^ 2 / 2)
      = 2 * (p * |ρ - 1| + (1 - p) * |ρ' - 1|) + h ^ 2 / 2 := by ring
  linarith

theorem tian_arith {h : ℝ} (h0 : 0 < h) (hh : h ≤ 1 / 2) {n : ℕ} (hn : 0 < n) :
    7 / 2 * h + n * (144 * h ^ 4) + 2 * √n * (216 / 5 * h ^ 3) + 2 * √n * (84 / 5 * h ^ 2) + 3 * (12 / 5 * h)
      ≤ h * (11 + 77 * (h * √n) + 72 * (h * √n) ^ 2) := by
  have hnn : √(n : ℝ) ^ 2 = n := sq_sqrt (by positivity)
  have hq : 0 ≤ √(n : ℝ) := sqrt_nonneg _
  generalize √(n : ℝ) = q at *
  rw [← hnn]
  have e : 7 / 2 * h + q ^ 2 * (144 * h ^ 4) + 2 * q * (216 / 5 * h ^ 3) + 2 * q * (84 / 5 * h ^ 2) + 3 * (12 / 5 * h)
      = h * (107 / 10 + 144 * h * (h * q) ^ 2 + 432 / 5 * h * (h * q) + 168 / 5 * (h * q)) := by ring
  rw [e]
  refine mul_le_mul_of_nonneg_left ?_ h0.le
  have hx : 0 ≤ h * q := by positivity
  generalize h * q = x at *
  have a1 : h * x ^ 2 ≤ 1 / 2 * x ^ 2 := mul_le_mul_of_nonneg_right hh (sq_nonneg x)
  have a2 : h * x ≤ 1 / 2 * x := mul_le_mul_of_nonneg_right hh hx
  nlinarith

set_option maxHeartbeats 1000000 in
/-- The Tian lattice: every carry rate, `σ² t / n ≤ 1/5`. -/
theorem tian_rate {S K t r b σ : ℝ} (hS : 0 < S) (hK : 0 < K) (ht : 0 < t) (hσ : 0 < σ) {n : ℕ} (hn : 0 < n)
    (hs : σ ^ 2 * (t / n) ≤ 1 / 5) {M W u d p : ℝ} (hM : M = exp (b * (t / n))) (hW : W = exp (σ ^ 2 * (t / n)))
    (hu : u = M * W / 2 * (W + 1 + √(W * W + 2 * W - 3))) (hd : d = M * W / 2 * (W + 1 - √(W * W + 2 * W - 3)))
    (hp : p = (M - d) / (u - d)) (hp0 : 0 ≤ p) (hp1 : p ≤ 1)
    {V : ℕ → ℕ → ℝ} (hV : IsVal false false S K u d p (exp (-r * (t / n))) n V) :
    |V 0 0 - bsPut S K t r b σ|
      ≤ K * exp (-r * t) * (σ * √(t / n)) * (11 + 77 * (σ * √t) + 72 * (σ * √t) ^ 2) := by
  have hn' : (0 : ℝ) < n := by exact_mod_cast hn
  have hdt : 0 < t / n := by positivity
  have hdt2 : √(t / n) ^ 2 = t / n := sq_sqrt hdt.le
  set h := σ * √(t / n) with hh
  have h0 : 0 < h := by positivity
  have hh2 : h ^ 2 = σ ^ 2 * (t / n) := by rw [hh, mul_pow, hdt2]
  have hh5 : h ^ 2 ≤ 1 / 5 := by rw [hh2]; exact hs
  have hhalf : h ≤ 1 / 2 := by nlinarith
  rw [← hh2] at hW
  have hMpos : 0 < M := by rw [hM]; exact exp_pos _
  obtain ⟨w, hw⟩ : ∃ w, W = 1 + w := ⟨W - 1, by ring⟩
  have hw0 : 0 < w := by
    have := add_one_lt_exp (by positivity : h ^ 2 ≠ 0)
    rw [← hW, hw] at this
    nlinarith
  have hw1 : w ≤ 6 / 5 * h ^ 2 := by
    have hq : |h ^ 2| ≤ 1 := by rw [abs_of_nonneg (sq_nonneg h)]; linarith
    have := (abs_le.1 (abs_exp_sub_one_sub_id_le hq)).2
    rw [← hW, hw] at this
    nlinarith [sq_nonneg h]
  have hw4 : w ≤ 1 / 4 := by linarith
  have hW1 : 1 < W := by linarith
  obtain ⟨g1, g2, g3⟩ := tian_aux hMpos hW1
  rw [← hu] at g3
  rw [← hd] at g1 g2
  have hupos : 0 < u := hMpos.trans g3
  have hsq : √(W * W + 2 * W - 3) ^ 2 = W * W + 2 * W - 3 := sq_sqrt (by nlinarith)
  have hsum : u / M + d / M = W * (W + 1) := by rw [hu, hd]; field_simp; ring
  have hprod : u / M * (d / M) = W ^ 2 := by
    have e : u / M * (d / M) = W ^ 2 / 4 * ((W + 1) ^ 2 - √(W * W + 2 * W - 3) ^ 2) := by rw [hu, hd]; field_simp; ring
    rw [e, hsq]; ring
  have hp' : p = (1 - d / M) / (u / M - d / M) := by
    have : u - d ≠ 0 := by linarith
    rw [hp, ← sub_div, div_div_eq_mul_div, sub_mul, one_mul, div_mul_cancel₀ _ hMpos.ne']
  obtain ⟨hd2, m1, m2, m3, m4⟩ := tian_moments hw hw0 hw4 ((div_lt_one hMpos).2 g2) ((one_lt_div hMpos).2 g3) hsum hprod hp'
  have hρ : 0 < u / M := div_pos hupos hMpos
  have hρ' : 0 < d / M := div_pos g1 hMpos
  set μ := (b - σ ^ 2 / 2) * (t / n) with hμ
  have hμ' : μ = b * (t / n) - h ^ 2 / 2 := by rw [hμ, hh2]; ring
  have lu : log u = b * (t / n) + log (u / M) := by rw [log_div hupos.ne' hMpos.ne', hM, log_exp]; ring
  have ld : log d = b * (t / n) + log (d / M) := by rw [log_div g1.ne' hMpos.ne', hM, log_exp]; ring
  have hq : 0 ≤ 1 - p := by linarith
  have hw2 : w ^ 2 ≤ 36 / 25 * h ^ 4 := by
    have := pow_le_pow_left₀ hw0.le hw1 2
    calc w ^ 2 ≤ (6 / 5 * h ^ 2) ^ 2 := this
      _ = _ := by ring
  -- first step
  have hM0 : p * |log u - μ| + (1 - p) * |log d - μ| ≤ 5 / 2 * h := by
    have := tian_first hp0 hp1 h0 hhalf hw1 ((one_lt_div hMpos).2 g3) hd2 m2
    rw [lu, ld, hμ', show b * (t / n) + log (u / M) - (b * (t / n) - h ^ 2 / 2) = log (u / M) + h ^ 2 / 2 by ring,
      show b * (t / n) + log (d / M) - (b * (t / n) - h ^ 2 / 2) = log (d / M) + h ^ 2 / 2 by ring]
    exact this
  have key := sum_errors (h := h) (μ := μ) (E0 := 7 / 2 * h) (A0 := 144 * h ^ 4) (A1 := 216 / 5 * h ^ 3)
    (A2 := 84 / 5 * h ^ 2) (A3 := 12 / 5 * h) hV hS hK (exp_log hupos).symm (exp_log g1).symm hp0 hp1 (exp_pos _).le hn
    (by positivity) (by positivity) (by positivity) (by positivity)
    (fun y => by
      have := first_step hp0 hp1 h0.le (y + μ) (log u - μ) (log d - μ)
      rw [exact_zero, exact_zero]
      have e : exact h μ (0 + 1) y = smoothPut h (y + μ) := by simp [exact]
      rw [e]
      rw [show y + μ + (log u - μ) = y + log u by ring, show y + μ + (log d - μ) = y + log d by ring] at this
      linarith)
    (fun m hm y => by
      have hm' : (0 : ℝ) < m := by exact_mod_cast hm
      obtain ⟨e1, e2, e3⟩ := inv_powers h0 hm rfl
      set s := h * √(m : ℝ) with hsdef
      have hs0 : 0 < s := by positivity
      have key := one_step_ratio (f := smoothPut s) (f1 := fun y => -putG s y) (f2 := put2 s) (f3 := put3 s)
        (f4 := put4 s) (hasDerivAt_smoothPut hs0) (hasDerivAt_put1 hs0) (hasDerivAt_put2 hs0) (hasDerivAt_put3 hs0)
        (B0 := 1) (fun w => by rw [abs_of_nonneg (smoothPut_nonneg _ _)]; exact smoothPut_le_one _ _)
        (B := 24 + 36 / 5 * (1 / s) + 14 / 5 * (1 / s ^ 2) + 2 / 5 * (1 / s ^ 3)) (fun w => by
          have b1 := abs_le.1 (abs_putG_le hs0 w)
          have b2 := abs_le.1 (put2_le hs0 w)
          have b3 := abs_le.1 (put3_le hs0 w)
          have b4 := abs_le.1 (put4_le hs0 w)
          have d1 : 2 / 5 / s = 2 / 5 * (1 / s) := by ring
          have d2 : 2 / 5 / s ^ 2 = 2 / 5 * (1 / s ^ 2) := by ring
          have d3 : 2 / 5 / s ^ 3 = 2 / 5 * (1 / s ^ 3) := by ring
          rw [d1] at b2 b3 b4
          rw [d2] at b3 b4
          rw [d3] at b4
          rw [abs_le]
          constructor <;> linarith [b1.1, b1.2, b2.1, b2.2, b3.1, b3.2, b4.1, b4.2]) hp0 hp1
        (y + m * μ + b * (t / n)) h hW hw hw0.le hw4 hρ hρ' m1 m2 m3 m4
      rw [exact_succ]
      unfold exact
      rw [← hsdef]
      have eL : p * smoothPut s (y + log u + m * μ) + (1 - p) * smoothPut s (y + log d + m * μ)
          - ∫ z, smoothPut s (y + μ + h * z + m * μ) ∂gaussianReal 0 1
          = p * smoothPut s (y + m * μ + b * (t / n) + log (u / M))
            + (1 - p) * smoothPut s (y + m * μ + b * (t / n) + log (d / M))
            - ∫ z, smoothPut s (y + m * μ + b * (t / n) + (h * z - h ^ 2 / 2)) ∂gaussianReal 0 1 := by
        have a1 : y + log u + m * μ = y + m * μ + b * (t / n) + log (u / M) := by rw [lu]; ring
        have a2 : y + log d + m * μ = y + m * μ + b * (t / n) + log (d / M) := by rw [ld]; ring
        have a3 : (fun z => smoothPut s (y + μ + h * z + m * μ))
            = fun z => smoothPut s (y + m * μ + b * (t / n) + (h * z - h ^ 2 / 2)) := by
          funext z; congr 1; linear_combination hμ'
        rw [a1, a2, a3]
      rw [eL]
      refine key.trans ?_
      rw [e1, e2, e3]
      have hB : 0 ≤ 24 + 36 / 5 * (1 / h * (1 / √m)) + 14 / 5 * (1 / h ^ 2 * (1 / m))
          + 2 / 5 * (1 / h ^ 3 * (1 / (m * √m))) := by positivity
      calc _ ≤ 25 / 6 * (36 / 25 * h ^ 4) * (24 + 36 / 5 * (1 / h * (1 / √m)) + 14 / 5 * (1 / h ^ 2 * (1 / m))
            + 2 / 5 * (1 / h ^ 3 * (1 / (m * √m)))) :=
            mul_le_mul_of_nonneg_right (mul_le_mul_of_nonneg_left hw2 (by norm_num)) hB
        _ = _ := by
            generalize 1 / √(m : ℝ) = q1
            generalize 1 / (m : ℝ) = q2
            generalize 1 / ((m : ℝ) * √m) = q3
            field_simp; ring)
  rw [exact_bsPut hS hK ht.le hn, exp_div_pow _ _ hn.ne'] at key
  refine key.trans ?_
  rw [mul_assoc (K * exp (-r * t))]
  refine mul_le_mul_of_nonneg_left ?_ (by positivity)
  have e1 : σ * √t = h * √n := by rw [hh, mul_assoc, ← sqrt_mul (by positivity), div_mul_cancel₀ _ hn'.ne']
  rw [e1]
  exact tian_arith h0 hhalf hn

end Verif
