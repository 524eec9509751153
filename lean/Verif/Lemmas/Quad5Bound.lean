import Verif.Lemmas.Quad5

/-! The uniform bound `|G c| ≤ 1.13e-6` for `c ≥ 0`. -/
namespace Verif.Quad5
open Real Spec PolyCheck Filter Topology Set

theorem ev_step (a b : List ℤ) (x w : ℝ) : ev (add a (smul (-1) b)) x / w = ev a x / w - ev b x / w := by
  rw [ev_add, ev_smul]; push_cast; ring

theorem R_le_tail {c : ℝ} (hc : 4.2 ≤ c) : 0 ≤ R c := by
  have h5 := nr5_small (c := c) (by linarith)
  have h4 := nr4_small (c := c) (by linarith)
  have h3 : nr 21141819000 106094980 c ≤ 1e-3 := by
    refine (nr_le (by norm_num) (c0 := 4.2) (by norm_num) (by norm_num) hc).trans ?_
    have h1 : exp (-(2 * ((106094980 : ℤ) / 10 ^ 8) * 4.2)) ≤ (10 / 27 : ℝ) ^ 8 := by
      refine le_trans (exp_le_exp.2 ?_) (exp_neg_nat 8)
      norm_num
    unfold nr nd
    push_cast at h1 ⊢
    norm_num at h1 ⊢
    linarith
  have e1 : exp (-1) ≤ 0.36788 := by
    rw [exp_neg, inv_le_comm₀ (exp_pos _) (by norm_num)]
    have := exp_one_gt_d9
    norm_num
    linarith
  have h2 : nr 39233107000 48281397 c ≤ 0.0674 := by
    refine (nr_le (by norm_num) (c0 := 4.2) (by norm_num) (by norm_num) hc).trans ?_
    have h1 : exp (-(2 * ((48281397 : ℤ) / 10 ^ 8) * 4.2)) ≤ (0.36788 : ℝ) ^ 4 := by
      calc exp (-(2 * ((48281397 : ℤ) / 10 ^ 8) * 4.2)) ≤ exp (((4 : ℕ) : ℝ) * -1) := exp_le_exp.2 (by norm_num)
        _ = exp (-1) ^ 4 := exp_nat_mul _ 4
        _ ≤ _ := pow_le_pow_left₀ (exp_pos _).le e1 4
    unfold nr nd
    push_cast at h1 ⊢
    norm_num at h1 ⊢
    linarith
  have h1 : nr 24840615000 10024215 c ≤ 0.9305 := by
    unfold nr nd
    push_cast
    have k := add_one_le_exp (2 * (10024215 / 10 ^ 8) * (10024215 / 10 ^ 8 + c) - 1)
    have e2 : exp (2 * (10024215 / 10 ^ 8) ^ 2) ≤ 1.0206 := by
      have hx : exp (2 * (10024215 / 10 ^ 8 : ℝ) ^ 2) ≤ exp 0.0201 := exp_le_exp.2 (by norm_num)
      have h3 : exp (-0.0201) ≥ 1 - 0.0201 := by have := add_one_le_exp (-0.0201 : ℝ); linarith
      have h4 : exp (0.0201 : ℝ) = (exp (-0.0201))⁻¹ := by rw [exp_neg, inv_inv]
      have h5 : exp (0.0201 : ℝ) ≤ (1 - 0.0201)⁻¹ := by
        rw [h4]
        exact inv_anti₀ (by norm_num) h3
      refine (hx.trans h5).trans ?_
      norm_num
    -- multiply out
    have e3 : exp (2 * (10024215 / 10 ^ 8) * (10024215 / 10 ^ 8 + c) - 1) * exp (-(2 * (10024215 / 10 ^ 8) * c))
        = exp (-1) * exp (2 * (10024215 / 10 ^ 8 : ℝ) ^ 2) := by
      rw [← exp_add, ← exp_add]; congr 1; ring
    have e4 : exp (-1) * exp (2 * (10024215 / 10 ^ 8 : ℝ) ^ 2) ≤ 0.36788 * 1.0206 :=
      mul_le_mul e1 e2 (exp_pos _).le (by norm_num)
    have e5 : 2 * (10024215 / 10 ^ 8) * (10024215 / 10 ^ 8 + c) * exp (-(2 * (10024215 / 10 ^ 8) * c))
        ≤ 0.36788 * 1.0206 := by
      refine le_trans ?_ (e3.le.trans e4)
      exact mul_le_mul_of_nonneg_right (by linarith) (exp_pos _).le
    have e6 : 2 * (10024215 / 10 ^ 8 + c) * (24840615000 / 10 ^ 11 * exp (-(2 * (10024215 / 10 ^ 8) * c)))
        = 24840615000 / 10 ^ 11 / (10024215 / 10 ^ 8)
          * (2 * (10024215 / 10 ^ 8) * (10024215 / 10 ^ 8 + c) * exp (-(2 * (10024215 / 10 ^ 8) * c))) := by
      ring
    rw [e6]
    refine (mul_le_mul_of_nonneg_left e5 (by norm_num)).trans ?_
    norm_num
  unfold R
  norm_num at h1 h2 h3 h4 h5 ⊢
  linarith

theorem R_nonneg {c : ℝ} (hc : 1.9 ≤ c) : 0 ≤ R c := by
  have h0 : (0 : ℝ) ≤ c := by norm_num at hc; linarith
  rcases le_total 4.2 c with h | h
  · exact R_le_tail h
  have near3 := r3_near h0 h
  rw [abs_le] at near3
  have h5 := nr5_small hc
  have hs := scl_pos
  rcases le_total 3 c with h' | h'
  · have k := check_sound check_3 (k := (c - 3) / 1.2) (div_nonneg (by linarith) (by norm_num))
      (by rw [div_le_one (by norm_num)]; linarith)
    rw [ev_dil, ev_shift, ev_add] at k
    have e : ((12 : ℤ) : ℝ) * ((c - 3) / 1.2) + ((30 : ℤ) : ℝ) = 10 * c := by norm_num; ring
    rw [e] at k
    have e2 : ev [-(2 * 10 ^ 14 * scl) - 3 * 10 ^ 9 * scl] (10 * c) = -((2e-5 + 3e-10) * (10 ^ 19 * scl)) := by
      simp only [ev]; push_cast; ring
    rw [e2] at k
    have k2 : 2e-5 + 3e-10 ≤ ev r3 (10 * c) / (10 ^ 19 * scl) := by
      rw [le_div_iff₀ hs]; linarith
    have h4 := nr4_small h'
    unfold R
    norm_num at *
    linarith
  · have k := check_sound check_2 (k := (c - 1.9) / 1.1) (div_nonneg (by linarith) (by norm_num))
      (by rw [div_le_one (by norm_num)]; linarith)
    rw [ev_dil, ev_shift, ev_add] at k
    have e : ((11 : ℤ) : ℝ) * ((c - 1.9) / 1.1) + ((19 : ℤ) : ℝ) = 10 * c := by norm_num; ring
    rw [e] at k
    have e2 : ev [-(4 * 10 ^ 12 * scl) - 3 * 10 ^ 9 * scl] (10 * c) = -((4e-7 + 3e-10) * (10 ^ 19 * scl)) := by
      simp only [ev]; push_cast; ring
    rw [e2] at k
    have k2 : 4e-7 + 3e-10 ≤ ev r4 (10 * c) / (10 ^ 19 * scl) := by
      rw [le_div_iff₀ hs]; linarith
    rw [r4, ev_step] at k2
    have t4 := term_bound 3324666000 177972940 (by norm_num) (by norm_num) h0 (by norm_num; linarith)
    rw [abs_le] at t4
    unfold R
    push_cast at *
    norm_num at *
    linarith

/-- Partial sums of `exp (c²)`. -/
theorem sqE_le {u : ℝ} : ev sqE u ≤ 100 ^ 12 * (Nat.factorial 12 : ℕ) * exp ((1.9 * u) ^ 2) := by
  have h := sum_le_exp_of_nonneg (x := (1.9 * u) ^ 2) (by positivity) 13
  have e : ev sqE u = 100 ^ 12 * (Nat.factorial 12 : ℕ) * ∑ i ∈ Finset.range 13, ((1.9 * u) ^ 2) ^ i / i.factorial := by
    have l : sqE = [100 ^ 12 * 479001600, 0, 361 * 100 ^ 11 * 479001600, 0, 361 ^ 2 * 100 ^ 10 * 239500800, 0,
      361 ^ 3 * 100 ^ 9 * 79833600, 0, 361 ^ 4 * 100 ^ 8 * 19958400, 0, 361 ^ 5 * 100 ^ 7 * 3991680, 0,
      361 ^ 6 * 100 ^ 6 * 665280, 0, 361 ^ 7 * 100 ^ 5 * 95040, 0, 361 ^ 8 * 100 ^ 4 * 11880, 0,
      361 ^ 9 * 100 ^ 3 * 1320, 0, 361 ^ 10 * 100 ^ 2 * 132, 0, 361 ^ 11 * 100 * 12, 0, 361 ^ 12] := by
      decide +kernel
    rw [l]
    simp only [ev, Finset.sum_range_succ, Finset.sum_range_zero, Nat.factorial]
    push_cast
    ring
  rw [e]
  exact mul_le_mul_of_nonneg_left h (by positivity)

/-- The primitive of the majorant. -/
noncomputable def WI (c : ℝ) : ℝ := 1.9 * ((c / 1.9) ^ (0 + 1) * ev qInt (c / 1.9)) / 10 ^ 12

theorem hasDerivAt_WI (c : ℝ) : HasDerivAt WI (ev qW (c / 1.9) / 10 ^ 12) c := by
  have h1 := CNDError.hasDerivAt_pow_ev qInt 0 (c / 1.9)
  have h2 : HasDerivAt (fun c : ℝ => c / 1.9) (1 / 1.9) c := (hasDerivAt_id c).div_const 1.9
  have h3 := ((HasDerivAt.comp c h1 h2).const_mul 1.9).div_const (10 ^ 12)
  refine h3.congr_deriv ?_
  simp only [pow_zero, one_mul, qW, zero_add]
  norm_num
  ring

theorem majorant {c : ℝ} (h0 : 0 ≤ c) (h1 : c ≤ 1.9) :
    0 ≤ ev qW (c / 1.9) / 10 ^ 12 ∧ 0 ≤ exp (-c ^ 2) * R c + ev qW (c / 1.9) / 10 ^ 12 := by
  have u0 : 0 ≤ c / 1.9 := div_nonneg h0 (by norm_num)
  have u1 : c / 1.9 ≤ 1 := by rw [div_le_one (by norm_num)]; exact h1
  have w := check_sound check_W u0 u1
  have wpos : 0 ≤ ev qW (c / 1.9) / 10 ^ 12 := by positivity
  refine ⟨wpos, ?_⟩
  have k := check_sound check_1 u0 u1
  rw [ev_add, ev_smul, ev_mul, ev_smul, ev_add, ev_dil] at k
  have e : ((19 : ℤ) : ℝ) * (c / 1.9) = 10 * c := by norm_num; ring
  rw [e] at k
  have sq := sqE_le (u := c / 1.9)
  have e2 : (1.9 : ℝ) * (c / 1.9) = c := by norm_num; ring
  rw [e2] at sq
  have hs := scl_pos
  have near3 := r3_near h0 (by norm_num at h1 ⊢; linarith)
  have t4 := term_bound 3324666000 177972940 (by norm_num) (by norm_num) h0 (by norm_num at h1 ⊢; linarith)
  have t5 := term_bound 82485334 266976040 (by norm_num) (by norm_num) h0 (by norm_num at h1 ⊢; linarith)
  rw [abs_le] at near3 t4 t5
  have hR : ev r5 (10 * c) / (10 ^ 19 * scl) - 1e-10 ≤ R c := by
    rw [r5, ev_step, r4, ev_step]
    unfold R
    push_cast at *
    norm_num at *
    linarith
  have hpos : (0 : ℝ) < 100 ^ 12 * (Nat.factorial 12 : ℕ) := by positivity
  have hE : 0 ≤ ev qW (c / 1.9) / 10 ^ 12 * exp (c ^ 2) + (ev r5 (10 * c) / (10 ^ 19 * scl) - 1e-10) := by
    have e3 : ev [-(10 ^ 9 * scl)] (c / 1.9) = -(1e-10 * (10 ^ 19 * (scl : ℝ))) := by
      simp only [ev]; push_cast; ring
    rw [e3] at k
    push_cast at k
    have k' : 0 < (100 ^ 12 * (Nat.factorial 12 : ℕ)) * (10 ^ 19 * scl) * (ev qW (c / 1.9) / 10 ^ 12 * exp (c ^ 2)
        + (ev r5 (10 * c) / (10 ^ 19 * scl) - 1e-10)) := by
      have e4 : (100 ^ 12 * (Nat.factorial 12 : ℕ)) * (10 ^ 19 * (scl : ℝ)) * (ev qW (c / 1.9) / 10 ^ 12 * exp (c ^ 2)
          + (ev r5 (10 * c) / (10 ^ 19 * scl) - 1e-10))
          = 10 ^ 7 * scl * (ev qW (c / 1.9) * (100 ^ 12 * (Nat.factorial 12 : ℕ) * exp (c ^ 2)))
            + 100 ^ 12 * (Nat.factorial 12 : ℕ) * (ev r5 (10 * c) + -(1e-10 * (10 ^ 19 * (scl : ℝ)))) := by
        have : (scl : ℝ) ≠ 0 := by
          intro h0
          rw [h0, mul_zero] at hs
          exact lt_irrefl _ hs
        field_simp
        ring
      rw [e4]
      have s0 : (0 : ℝ) ≤ 10 ^ 7 * scl := by
        have : (0 : ℝ) < scl := (mul_pos_iff_of_pos_left (by norm_num)).1 hs
        positivity
      have := mul_le_mul_of_nonneg_left (mul_le_mul_of_nonneg_left sq w.le) s0
      push_cast at this ⊢
      linarith
    have pos2 : (0 : ℝ) < (100 ^ 12 * (Nat.factorial 12 : ℕ)) * (10 ^ 19 * scl) := mul_pos hpos hs
    exact ((mul_pos_iff_of_pos_left pos2).1 k').le
  have h2 : 0 ≤ ev qW (c / 1.9) / 10 ^ 12 * exp (c ^ 2) + R c := by linarith
  have h3 := mul_nonneg (exp_pos (-c ^ 2)).le h2
  have e5 : exp (-c ^ 2) * exp (c ^ 2) = 1 := by rw [← exp_add]; simp
  nlinarith

theorem G_zero : |G 0| ≤ 1e-8 := by
  have h : G 0 = 0.88622692334 - √π / 2 := by
    simp only [G, S, T, nd, mul_zero, neg_zero, exp_zero, Φ_zero]
    norm_num
    ring
  have p1 := pi_gt_d20
  have p2 := pi_lt_d20
  have s1 : 1.77245385 ≤ √π := by
    refine le_sqrt_of_sq_le ?_
    norm_num at p1 ⊢
    linarith
  have s2 : √π ≤ 1.77245386 := by
    rw [sqrt_le_left (by norm_num)]
    norm_num at p2 ⊢
    linarith
  rw [h, abs_le]
  norm_num at *
  constructor <;> linarith

theorem tendsto_G : Tendsto G atTop (𝓝 0) := by
  have hsq : Tendsto (fun c : ℝ => exp (-c ^ 2)) atTop (𝓝 0) := by
    refine tendsto_exp_atBot.comp ?_
    exact tendsto_neg_atTop_atBot.comp (tendsto_pow_atTop two_ne_zero)
  have hT : Tendsto T atTop (𝓝 0) := by
    have h1 : Tendsto (fun c : ℝ => -(√2 * c)) atTop atBot :=
      tendsto_neg_atTop_atBot.comp (tendsto_id.const_mul_atTop (by positivity))
    have := (tendsto_Φ_atBot.comp h1).const_mul √π
    rw [mul_zero] at this
    exact this
  have hS : Tendsto (fun c => exp (-c ^ 2) * S c) atTop (𝓝 0) := by
    refine squeeze_zero' (eventually_atTop.2 ⟨0, fun c hc => ?_⟩) (eventually_atTop.2 ⟨0, fun c hc => ?_⟩) hsq
    · unfold S nd; positivity
    · have hb : ∀ (a b : ℤ), 0 ≤ a → 0 ≤ b → nd a b c ≤ a / 10 ^ 11 := by
        intro a b ha hb
        have : (0 : ℝ) ≤ b := by exact_mod_cast hb
        have : (0 : ℝ) ≤ a := by exact_mod_cast ha
        have : exp (-(2 * ((b : ℝ) / 10 ^ 8) * c)) ≤ 1 := exp_le_one_iff.2 (by
          have : 0 ≤ 2 * ((b : ℝ) / 10 ^ 8) * c := by positivity
          linarith)
        unfold nd
        exact mul_le_of_le_one_right (by positivity) this
      have h1 := hb 24840615000 10024215 (by norm_num) (by norm_num)
      have h2 := hb 39233107000 48281397 (by norm_num) (by norm_num)
      have h3 := hb 21141819000 106094980 (by norm_num) (by norm_num)
      have h4 := hb 3324666000 177972940 (by norm_num) (by norm_num)
      have h5 := hb 82485334 266976040 (by norm_num) (by norm_num)
      have : S c ≤ 1 := by
        unfold S
        push_cast at *
        norm_num at *
        linarith
      exact mul_le_of_le_one_right (exp_pos _).le this
  have := hS.sub hT
  rw [sub_zero] at this
  exact this

/-- The error of the quadrature. -/
theorem G_bound {c : ℝ} (hc : 0 ≤ c) : |G c| ≤ 1.14e-6 := by
  -- beyond 1.9 the error increases to zero
  have mono : MonotoneOn G (Ici 1.9) := by
    refine monotoneOn_of_deriv_nonneg (convex_Ici _) (fun y _ => (hasDerivAt_G y).continuousAt.continuousWithinAt)
      (fun y _ => (hasDerivAt_G y).differentiableAt.differentiableWithinAt) fun y hy => ?_
    rw [(hasDerivAt_G y).deriv]
    exact mul_nonneg (exp_pos _).le (R_nonneg (interior_subset hy))
  have nonpos : ∀ y, 1.9 ≤ y → G y ≤ 0 := fun y hy =>
    ge_of_tendsto tendsto_G (eventually_atTop.2 ⟨y, fun z hz => mono hy (mem_Ici.2 (hy.trans hz)) hz⟩)
  have mono2 : MonotoneOn (fun y => G y + WI y) (Icc 0 1.9) := by
    refine monotoneOn_of_deriv_nonneg (convex_Icc _ _)
      (fun y _ => ((hasDerivAt_G y).add (hasDerivAt_WI y)).continuousAt.continuousWithinAt)
      (fun y _ => ((hasDerivAt_G y).add (hasDerivAt_WI y)).differentiableAt.differentiableWithinAt) fun y hy => ?_
    have hy' := interior_subset hy
    have := ((hasDerivAt_G y).add (hasDerivAt_WI y)).deriv
    rw [show (fun y => G y + WI y) = G + WI from rfl, this]
    exact (majorant hy'.1 hy'.2).2
  have monoW : MonotoneOn WI (Icc 0 1.9) := by
    refine monotoneOn_of_deriv_nonneg (convex_Icc _ _) (fun y _ => (hasDerivAt_WI y).continuousAt.continuousWithinAt)
      (fun y _ => (hasDerivAt_WI y).differentiableAt.differentiableWithinAt) fun y hy => ?_
    have hy' := interior_subset hy
    rw [(hasDerivAt_WI y).deriv]
    exact (majorant hy'.1 hy'.2).1
  have w0 : WI 0 = 0 := by simp [WI]
  have w1 : WI 1.9 ≤ 1.123e-6 := by
    have : (1.9 : ℝ) / 1.9 = 1 := by norm_num
    rw [WI, this]
    simp only [qInt, ev]
    norm_num
  have m0 : (0 : ℝ) ∈ Icc (0 : ℝ) 1.9 := ⟨le_rfl, by norm_num⟩
  have m1 : (1.9 : ℝ) ∈ Icc (0 : ℝ) 1.9 := ⟨by norm_num, le_rfl⟩
  have g0 := G_zero
  rw [abs_le] at g0 ⊢
  have key : ∀ y ∈ Icc (0 : ℝ) 1.9, -1.14e-6 ≤ G y ∧ G y ≤ 1.14e-6 := by
    intro y hy
    have a1 := mono2 m0 hy hy.1
    have a2 := mono2 hy m1 hy.2
    have b1 := monoW hy m1 hy.2
    have b2 := monoW m0 hy hy.1
    have n1 := nonpos 1.9 le_rfl
    simp only at a1 a2
    rw [w0] at a1 b2
    norm_num at *
    constructor <;> linarith
  rcases le_total c 1.9 with h | h
  · exact key c ⟨hc, h⟩
  · have := mono (mem_Ici.2 le_rfl) (mem_Ici.2 h) h
    have n := nonpos c h
    have k := (key 1.9 m1).1
    norm_num at *
    constructor <;> linarith

end Verif.Quad5
