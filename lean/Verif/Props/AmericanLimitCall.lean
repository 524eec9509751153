import Verif.Lemmas.AmericanDual
import Verif.Props.AmericanLimit

/-!
C95 for American calls of the JR and TIAN classes, whose lattices are not symmetric under exchanging spot and strike.
-/
namespace Verif.Props
open Verif Verif.Spec Real MeasureTheory ProbabilityTheory Filter _root_.Verif.Tree
open scoped Topology

/-- **C95** (`JRBinomialTreeOption`, calls), `b ≤ r`, any number of steps: the American price is within
`S (2 C σ√t n^{-1/4} + 2 w(2 t n^{-1/4}))` of the American value, `C = 12 + 5 σ√t + 5/4 σ²t` and `w` as for a put with
`r - b` and `-b`. -/
theorem C95_jr_call {S K t σ : ℝ} (h : Valid S K t σ) {r b : ℝ} (hb : b ≤ r) {n : ℕ} (hn : 0 < n) :
    ∃ x, price .jr ⟨S, K, t, r, b, σ, "american", n⟩ true = .ok x ∧
      |x - american true S K t r b σ|
        ≤ S * (2 * (12 + 5 * (σ * √t) + 5 / 4 * (σ * √t) ^ 2) * (σ * √t) / n ^ (1 / 4 : ℝ)
          + 2 * waiting (r - b) (-b) (2 * t / n ^ (1 / 4 : ℝ))) := by
  let o : Opt := ⟨S, K, t, r, b, σ, "american", n⟩
  obtain ⟨V, hV⟩ := exists_val true true S K (factors .jr o).u (factors .jr o).d (factors .jr o).p
    (factors .jr o).Df n
  refine ⟨_, price_val (o := o) (am := true) hn.ne' rfl hV, ?_⟩
  have hn' : (0 : ℝ) < n := by exact_mod_cast hn
  have ht := h.t
  have hσ := h.σ
  have hdt : 0 < t / n := by positivity
  have hdt2 : √(t / n) ^ 2 = t / n := sq_sqrt hdt.le
  obtain ⟨s, hs⟩ : ∃ s, s = σ * √(t / n) := ⟨_, rfl⟩
  have hs0 : 0 < s := by rw [hs]; positivity
  have hs2 : s ^ 2 = σ ^ 2 * (t / n) := by rw [hs, mul_pow, hdt2]
  have hst : σ * √t = s * √n := by rw [hs, mul_assoc, ← sqrt_mul hdt.le, div_mul_cancel₀ _ hn'.ne']
  set a := (b - σ ^ 2 / 2) * (t / n) with ha
  have fu : (factors .jr o).u = exp (a + s) := by simp only [factors, o, ha, hs]
  have fd : (factors .jr o).d = exp (a - s) := by simp only [factors, o, ha, hs]
  have fp : (factors .jr o).p = 1 / 2 := rfl
  have fD : (factors .jr o).Df = exp (-r * (t / n)) := rfl
  rw [fu, fd, fp, fD] at hV
  set D := exp (-(r - b) * (t / n)) with hD
  have hD1 : D ≤ 1 := by rw [hD, exp_le_one_iff]; nlinarith
  have hD0 : 0 < D := exp_pos _
  set c := exp (-(s ^ 2 / 2)) * cosh s with hc
  obtain ⟨c0, c1, -⟩ := jr_defect (h := s)
  rw [← hc] at c0 c1
  set m := exp a * cosh s with hm
  have hcs := cosh_pos s
  have hm0 : 0 < m := by positivity
  have hm' : m = 1 / 2 * exp (a + s) + (1 - 1 / 2) * exp (a - s) := by
    rw [hm, cosh_eq, exp_add, sub_eq_add_neg a s, exp_add]; ring
  have hmD : m * exp (-r * (t / n)) = D * c := by
    rw [hm, hD, hc, ha]
    have : exp ((b - σ ^ 2 / 2) * (t / n)) * exp (-r * (t / n)) = exp (-(r - b) * (t / n)) * exp (-(s ^ 2 / 2)) := by
      rw [← exp_add, ← exp_add, hs2]; congr 1; ring
    linear_combination (cosh s) * this
  have hDc1 : D * c ≤ 1 := by
    calc D * c ≤ 1 * 1 := mul_le_mul hD1 c1 c0 zero_le_one
      _ = 1 := one_mul 1
  have hq : 1 / 2 * exp (a + s) / m = (1 + sinh s / cosh s) / 2 := by
    rw [hm, exp_add]
    have := exp_pos a
    field_simp
    rw [cosh_add_sinh]
  obtain ⟨t0, -, -⟩ := tanh_bounds hs0
  have hlt : sinh s / cosh s ≤ 1 := by
    rw [div_le_one hcs]; exact (sinh_lt_cosh s).le
  have hx1 : -(a + s) = (-b - σ ^ 2 / 2) * (t / n) + (s ^ 2 - s) := by rw [hs2, ha]; ring
  have hx2 : -(a - s) = (-b - σ ^ 2 / 2) * (t / n) + (s ^ 2 + s) := by rw [hs2, ha]; ring
  have e := lattice_dual hV h.S h.K rfl rfl (by norm_num) (by norm_num) (exp_pos _).le hm' (by rw [hmD]; exact hDc1)
    0 (by omega) 0 le_rfl
  simp only [Spec.node, pow_zero, mul_one, Nat.sub_zero] at e
  rw [e, hmD, hq, american_symmetry h.S h.K h.t.le, hx1, hx2]
  set p := (1 + sinh s / cosh s) / 2 with hp
  have hmean : D * c * (p * exp ((-b - σ ^ 2 / 2) * (t / n) + (s ^ 2 - s)) + (1 - p)
      * exp ((-b - σ ^ 2 / 2) * (t / n) + (s ^ 2 + s))) = exp ((-b - (r - b)) * (t / n)) := by
    rw [← hmD, ← hx1, ← hx2, ← hq, exp_neg, exp_neg]
    have e1 : 1 - 1 / 2 * exp (a + s) / m = 1 / 2 * exp (a - s) / m := by
      rw [eq_div_iff hm0.ne', sub_mul, div_mul_cancel₀ _ hm0.ne', hm']; ring
    rw [e1, show (-b - (r - b)) * (t / n) = -r * (t / n) by ring]
    have := exp_pos (a + s)
    have := exp_pos (a - s)
    field_simp
    norm_num
  have hT := stepOp_L (D := D * c) (p := p) (by positivity) hDc1 (by rw [hp]; linarith) (by rw [hp]; linarith) hmean.le
  have key := american_error_rate (S := K) (K := S) (t := t) (r := r - b) (b := -b) (σ := σ) (n := n)
    (C := 11 + 5 * (σ * √t) + (σ * √t) ^ 2) (C' := 1 + (σ * √t) ^ 2 / 4) hT (exp_pos _).le h.K h.S h.t.le (by linarith)
    h.σ.le hn (by positivity) (by positivity)
    (fun f hf i hi y => by
      have := (jr_dual_block (μ := (-b - σ ^ 2 / 2) * (t / n)) hD0.le hD1 hs0 hc hp f hf i hi y).1
      rw [hst, ← hs]
      unfold opBS
      rw [← hs]
      exact this)
    (fun q hq => by
      have := (jr_dual_block (μ := (-b - σ ^ 2 / 2) * (t / n)) hD0.le hD1 hs0 hc hp _ nice_put q hq 0).2
      rw [← hs, hst]
      have h1 : D ^ q ≤ 1 := pow_le_one₀ hD0.le hD1
      have h2 : c ^ q ≤ 1 := pow_le_one₀ c0 c1
      have h3 : D ^ q - (D * c) ^ q ≤ 1 - c ^ q := by
        rw [mul_pow]
        nlinarith
      linarith)
  convert key using 3
  ring

/-- **C95** (`TIANBinomialTreeOption`, calls), `b ≤ r`, `σ² t/n ≤ 1/5`. -/
theorem C95_tian_call {S K t σ : ℝ} (h : Valid S K t σ) {r b : ℝ} (hb : b ≤ r) {n : ℕ} (hn : 0 < n)
    (hs : σ ^ 2 * (t / n) ≤ 1 / 5) :
    ∃ x, price .tian ⟨S, K, t, r, b, σ, "american", n⟩ true = .ok x ∧
      |x - american true S K t r b σ|
        ≤ S * (2 * (185 + 138 * (σ * √t) + 12 * (σ * √t) ^ 2) * (σ * √t) / n ^ (1 / 4 : ℝ)
          + 2 * waiting (r - b) (-b) (2 * t / n ^ (1 / 4 : ℝ))) := by
  let o : Opt := ⟨S, K, t, r, b, σ, "american", n⟩
  have hV' : TreeValid o := ⟨h.t, h.σ, hn⟩
  obtain ⟨p0, p1⟩ := tian_prob hV'
  obtain ⟨u0, d0⟩ := factors_pos .tian hV'
  obtain ⟨V, hV⟩ := exists_val true true S K (factors .tian o).u (factors .tian o).d (factors .tian o).p
    (factors .tian o).Df n
  refine ⟨_, price_val (o := o) (am := true) hn.ne' rfl hV, ?_⟩
  have hn' : (0 : ℝ) < n := by exact_mod_cast hn
  have ht := h.t
  have hσ := h.σ
  have hdt : 0 < t / n := by positivity
  have g := good_tian hV'
  have hm : exp (b * (t / n)) = (factors .tian o).p * (factors .tian o).u + (1 - (factors .tian o).p)
      * (factors .tian o).d := g.mean.symm
  have fD : (factors .tian o).Df = exp (-r * (t / n)) := rfl
  have hmD : exp (b * (t / n)) * (factors .tian o).Df = exp (-(r - b) * (t / n)) := by
    rw [fD, ← exp_add]; congr 1; ring
  have hD1 : exp (-(r - b) * (t / n)) ≤ 1 := by rw [exp_le_one_iff]; nlinarith
  have e := lattice_dual hV h.S h.K (exp_log u0).symm (exp_log d0).symm p0.le p1.le (by rw [fD]; exact (exp_pos _).le) hm
    (by rw [hmD]; exact hD1) 0 (by omega) 0 le_rfl
  simp only [Spec.node, pow_zero, mul_one, Nat.sub_zero] at e
  rw [e, hmD, american_symmetry h.S h.K h.t.le]
  have hblock := tian_dual_block (r := r) h.t (by linarith) h.σ hn hs rfl rfl rfl rfl rfl p0.le p1.le
  set u := (factors .tian o).u
  set d := (factors .tian o).d
  set p := (factors .tian o).p
  have hm0 := exp_pos (b * (t / n))
  set M := exp (b * (t / n)) with hM
  have hq : 1 - p * u / M = (1 - p) * d / M := by
    rw [eq_div_iff hm0.ne', sub_mul, div_mul_cancel₀ _ hm0.ne', hm]; ring
  have hP0 : 0 ≤ p * u / M := by positivity
  have hP1 : p * u / M ≤ 1 := by
    have h1 : 0 ≤ 1 - p := by linarith
    have : 0 ≤ (1 - p) * d / M := by positivity
    linarith
  have hmean : exp (-(r - b) * (t / n)) * (p * u / M * exp (-log u) + (1 - p * u / M) * exp (-log d))
      = exp ((-b - (r - b)) * (t / n)) := by
    rw [hq, exp_neg, exp_neg, exp_log u0, exp_log d0]
    have e1 : p * u / M * u⁻¹ + (1 - p) * d / M * d⁻¹ = M⁻¹ := by field_simp; ring
    rw [e1, hM, ← exp_neg, ← exp_add]; congr 1; ring
  have hT := stepOp_L (exp_pos (-(r - b) * (t / n))).le hD1 hP0 hP1 hmean.le
  have key := american_error_rate (S := K) (K := S) (t := t) (r := r - b) (b := -b) (σ := σ) (n := n)
    (C' := 0) hT (exp_pos _).le h.K h.S h.t.le (by linarith) h.σ.le hn (by positivity) le_rfl hblock
    (fun q hq => by rw [mul_zero, add_zero])
  rwa [add_zero] at key

/-! ### Limits -/

/-- With `r < b` the drift lost by the JR lattice is eventually too small to make early exercise worthwhile. -/
theorem jr_call_carry {S K t σ : ℝ} (h : Valid S K t σ) {r b : ℝ} (hr : 0 ≤ r) {n : ℕ} (hn : 0 < n)
    (hs : σ ^ 4 * (t / n) ≤ 8 * (b - r)) :
    price .jr ⟨S, K, t, r, b, σ, "american", n⟩ true = price .jr ⟨S, K, t, r, b, σ, "european", n⟩ true := by
  let o : Opt := ⟨S, K, t, r, b, σ, "american", n⟩
  let o' : Opt := ⟨S, K, t, r, b, σ, "european", n⟩
  have hV' : TreeValid o := ⟨h.t, h.σ, hn⟩
  obtain ⟨V, hV⟩ := exists_val true true S K (factors .jr o).u (factors .jr o).d (factors .jr o).p
    (factors .jr o).Df n
  obtain ⟨W, hW⟩ := exists_val false true S K (factors .jr o).u (factors .jr o).d (factors .jr o).p
    (factors .jr o).Df n
  rw [price_val (o := o) (am := true) hn.ne' rfl hV, price_val (o := o') (am := false) hn.ne' rfl hW]
  congr 1
  refine american_call_eq hV hW h.S.le h.K.le (u_nonneg .jr hV') (d_nonneg .jr hV') (Df_nonneg .jr)
    (_root_.Verif.Df_le_one .jr hV' hr) (by norm_num [factors]) (by norm_num [factors]) ?_ 0 (by omega) 0 le_rfl
  have hn' : (0 : ℝ) < n := by exact_mod_cast hn
  have ht := h.t
  have hdt : 0 < t / n := by positivity
  obtain ⟨s, hsd⟩ : ∃ s, s = σ * √(t / n) := ⟨_, rfl⟩
  have hs2 : s ^ 2 = σ ^ 2 * (t / n) := by rw [hsd, mul_pow, sq_sqrt hdt.le]
  have hs4 : s ^ 4 = σ ^ 4 * (t / n) * (t / n) := by rw [show s ^ 4 = (s ^ 2) ^ 2 by ring, hs2]; ring
  have e : (factors .jr o).Df * ((factors .jr o).p * (factors .jr o).u + (1 - (factors .jr o).p) * (factors .jr o).d)
      = exp ((b - r) * (t / n) - s ^ 2 / 2) * cosh s := by
    simp only [factors, o]
    rw [← hsd, cosh_eq, exp_add, sub_eq_add_neg _ s, exp_add]
    have : exp ((b - r) * (t / n) - s ^ 2 / 2) = exp (-r * (t / n)) * exp ((b - σ ^ 2 / 2) * (t / n)) := by
      rw [← exp_add, hs2]; congr 1; ring
    rw [this]; ring
  rw [e]
  have hch : exp (s ^ 2 / 2 - s ^ 4 / 8) ≤ cosh s := by
    have h1 : 1 + s ^ 2 / 2 ≤ cosh s := one_add_half_sq_le_cosh s
    refine le_trans ?_ h1
    have hx : 0 ≤ s ^ 2 / 2 := by positivity
    have h2 := le_log_one_add_of_nonneg hx
    rw [← le_log_iff_exp_le (by positivity)]
    refine le_trans ?_ h2
    rw [le_div_iff₀ (by positivity)]
    nlinarith [mul_nonneg hx (sq_nonneg (s ^ 2 / 2))]
  calc (1 : ℝ) ≤ exp ((b - r) * (t / n) - s ^ 4 / 8) := by
        rw [one_le_exp_iff, hs4]
        nlinarith
    _ = exp ((b - r) * (t / n) - s ^ 2 / 2) * exp (s ^ 2 / 2 - s ^ 4 / 8) := by rw [← exp_add]; congr 1; ring
    _ ≤ _ := mul_le_mul_of_nonneg_left hch (exp_pos _).le

theorem sqrt_rate_tendsto (A t : ℝ) : Tendsto (fun n : ℕ => A * √(t / n)) atTop (𝓝 0) := by
  have h0 : Tendsto (fun n : ℕ => √(t / n)) atTop (𝓝 (√0)) :=
    (continuous_sqrt.tendsto 0).comp (tendsto_natCast_atTop_atTop.const_div_atTop t)
  have h1 := h0.const_mul A
  rwa [sqrt_zero, mul_zero] at h1

theorem step_small (c t : ℝ) {δ : ℝ} (hδ : 0 < δ) : ∀ᶠ n : ℕ in atTop, c * (t / n) ≤ δ := by
  have h := ((tendsto_natCast_atTop_atTop (R := ℝ)).const_div_atTop t).const_mul c
  rw [mul_zero] at h
  exact (h.eventually_lt_const hδ).mono fun n hn => hn.le

/-- **C95**, limit of American calls of all three binomial classes, whenever `b ≤ r` or `0 ≤ r`. -/
theorem C95_limit_call_classes (c : Cls) {S K t σ : ℝ} (h : Valid S K t σ) {r b : ℝ} (hrb : b ≤ r ∨ 0 ≤ r) {ε : ℝ}
    (hε : 0 < ε) :
    ∀ᶠ n : ℕ in atTop, ∃ x, price c ⟨S, K, t, r, b, σ, "american", n⟩ true = .ok x ∧
      |x - american true S K t r b σ| < ε := by
  cases c
  · exact C95_limit_call h hrb hε
  · by_cases hb : b ≤ r
    · refine close_eventually (rate_tendsto S (2 * (12 + 5 * (σ * √t) + 5 / 4 * (σ * √t) ^ 2) * (σ * √t)) (r - b) (-b) t)
        ?_ hε
      filter_upwards [eventually_gt_atTop 0] with n hn
      exact C95_jr_call h hb hn
    · have hr : 0 ≤ r := hrb.resolve_left hb
      push Not at hb
      have h1 := (sqrt_rate_tendsto (K * exp (-r * t) * σ * (3 + (σ * √t) ^ 3)) t).add
        ((tendsto_natCast_atTop_atTop (R := ℝ)).const_div_atTop (S * exp ((b - r) * t) * ((σ * √t) ^ 4 / 4)))
      rw [add_zero] at h1
      refine close_eventually h1 ?_ hε
      filter_upwards [eventually_gt_atTop 0, step_small (σ ^ 4) t (show 0 < 8 * (b - r) by linarith)] with n hn hs
      obtain ⟨x, hx, hx'⟩ := C94_jr_call h r b hn
      refine ⟨x, (jr_call_carry h hr hn hs).trans hx, ?_⟩
      rw [american_call_european h.S.le h.K.le h.t.le hr hb.le]
      refine hx'.trans (le_of_eq ?_)
      have hn' : (n : ℝ) ≠ 0 := by exact_mod_cast hn.ne'
      field_simp
  · by_cases hb : b ≤ r
    · refine close_eventually (rate_tendsto S (2 * (185 + 138 * (σ * √t) + 12 * (σ * √t) ^ 2) * (σ * √t)) (r - b) (-b) t)
        ?_ hε
      filter_upwards [eventually_gt_atTop 0, step_small (σ ^ 2) t (show (0:ℝ) < 1 / 5 by norm_num)] with n hn hs
      exact C95_tian_call h hb hn hs
    · have hr : 0 ≤ r := hrb.resolve_left hb
      push Not at hb
      refine close_eventually (sqrt_rate_tendsto (K * exp (-r * t) * σ * (11 + 77 * (σ * √t) + 72 * (σ * √t) ^ 2)) t) ?_ hε
      filter_upwards [eventually_gt_atTop 0, step_small (σ ^ 2) t (show (0:ℝ) < 1 / 5 by norm_num)] with n hn hs
      obtain ⟨x, hx, hx'⟩ := C94_american_call_tian h hr hb.le hn hs
      refine ⟨x, hx, ?_⟩
      rw [american_call_european h.S.le h.K.le h.t.le hr hb.le]
      refine hx'.trans (le_of_eq ?_)
      ring

/-- The documented option (`S = K = 50`, five months, `r = 0.1`, `σ = 0.4`) as a call on a futures contract (`b = 0`), 5
steps. -/
example : ∃ x, price .jr ⟨50, 50, 5 / 12, 1 / 10, 0, 2 / 5, "american", 5⟩ true = .ok x ∧
    |x - american true 50 50 (5 / 12) (1 / 10) 0 (2 / 5)|
      ≤ 50 * (2 * (12 + 5 * (2 / 5 * √(5 / 12)) + 5 / 4 * (2 / 5 * √(5 / 12)) ^ 2) * (2 / 5 * √(5 / 12))
        / ((5 : ℕ) : ℝ) ^ (1 / 4 : ℝ) + 2 * waiting (1 / 10 - 0) (-0) (2 * (5 / 12) / ((5 : ℕ) : ℝ) ^ (1 / 4 : ℝ))) :=
  C95_jr_call ⟨by norm_num, by norm_num, by norm_num, by norm_num⟩ (by norm_num) (by norm_num)

end Verif.Props
