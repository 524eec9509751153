import Verif.Props.Perpetual
import Verif.Props.BAWTerm

/-!
# C110, continued: the quadratic approximation for long maturities

The exact quadratic approximation tends to the perpetual option as the maturity grows. `BAWAmericanApproxOption` therefore comes
within its search tolerance of the perpetual price, except for calls with negative cost of carry, where it returns `S - K`.
-/
namespace Verif.Props
open Real Filter Verif.Spec QuadApprox
open Fl (num)
open scoped Topology

theorem tendsto_exp_neg {c : ℝ} (hc : c < 0) : Tendsto (fun t : ℝ => exp (c * t)) atTop (𝓝 0) :=
  tendsto_exp_atBot.comp (tendsto_id.const_mul_atTop_of_neg hc)

/-- Discount rate whose factor bounds the European option: calls by the forward price, puts by the strike. -/
theorem bsPrice_small {K t r b σ s : ℝ} (isCall : Bool) (hs : 0 < s) (hK : 0 < K) (ht : 0 < t) (hσ : 0 < σ) :
    0 ≤ bsPrice isCall s K t r b σ ∧
    bsPrice isCall s K t r b σ ≤ if isCall then s * exp ((b - r) * t) else K * exp (-r * t) := by
  cases isCall
  · simp only [bsPrice, Bool.false_eq_true, if_false]
    refine ⟨mul_nonneg (exp_pos _).le (MeasureTheory.integral_nonneg fun _ => le_max_right _ _), ?_⟩
    have h := bsCall_eq (r := r) (b := b) hs hK ht hσ
    rw [bsPut_eq_call ht.le, h]
    have h1 := (Φ_lt_one (D1 s K t b σ)).le
    have h2 := Φ_nonneg (D1 s K t b σ - σ * √t)
    have h3 : 0 < s * exp ((b - r) * t) := mul_pos hs (exp_pos _)
    have h4 : 0 < K * exp (-r * t) := mul_pos hK (exp_pos _)
    nlinarith
  · simp only [bsPrice, if_true]
    refine ⟨bsCall_nonneg _ _ _ _ _ _, ?_⟩
    rw [bsCall_eq hs hK ht hσ]
    have h1 := (Φ_lt_one (D1 s K t b σ)).le
    have h2 := Φ_nonneg (D1 s K t b σ - σ * √t)
    have h3 : 0 < s * exp ((b - r) * t) := mul_pos hs (exp_pos _)
    have h4 : 0 < K * exp (-r * t) := mul_pos hK (exp_pos _)
    nlinarith

/-- The exponents of the quadratic approximation tend to those of the perpetual option. -/
theorem baw_exponent_limit {r b σ γ : ℝ} {q : ℝ → ℝ} (isCall : Bool) (hσ : 0 < σ) (hr : 0 < r)
    (hs : Stationary r b σ γ) (hγ : 0 < cpSign isCall * γ)
    (hq : ∀ᶠ t in atTop, 1 / 2 * σ ^ 2 * q t * (q t - 1) + b * q t = r / (1 - exp (-r * t)) ∧ 0 < cpSign isCall * q t) :
    Tendsto q atTop (𝓝 γ) := by
  have hX : Tendsto (fun t => BAW.X t r σ) atTop (𝓝 (BAW.m r σ)) := by
    have h := ((tendsto_exp_neg (c := -r) (by linarith)).const_sub 1).const_mul (σ ^ 2)
    have := (tendsto_const_nhds (x := 2 * r)).div h (by simp; positivity)
    rw [sub_zero, mul_one] at this
    exact this
  have hsq : Tendsto (fun t => √((BAW.n b σ - 1) ^ 2 + 4 * BAW.X t r σ)) atTop
      (𝓝 √((BAW.n b σ - 1) ^ 2 + 4 * BAW.m r σ)) := ((hX.const_mul 4).const_add _).sqrt
  have hm : 0 < BAW.m r σ := by unfold BAW.m; positivity
  have hgt : |BAW.n b σ - 1| < √((BAW.n b σ - 1) ^ 2 + 4 * BAW.m r σ) := by
    rw [← sqrt_sq_eq_abs]; exact sqrt_lt_sqrt (sq_nonneg _) (by linarith)
  have a1 := (neg_le_abs (BAW.n b σ - 1)).trans_lt hgt
  have a2 := (le_abs_self (BAW.n b σ - 1)).trans_lt hgt
  set R := √((BAW.n b σ - 1) ^ 2 + 4 * BAW.m r σ) with hR
  have e1 := perpetual_root (b := b) hσ hr (.inl rfl)
  have e2 := perpetual_root (b := b) hσ hr (.inr rfl)
  rw [← hR] at e1 e2
  unfold Stationary at hs
  have hσ2 : 0 < σ ^ 2 := by positivity
  have hprod : (γ - (-(BAW.n b σ - 1) + R) / 2) * (γ - (-(BAW.n b σ - 1) - R) / 2) = 0 := by
    have hn : BAW.n b σ * σ ^ 2 = 2 * b := by unfold BAW.n; field_simp
    have hmm : BAW.m r σ * σ ^ 2 = 2 * r := by unfold BAW.m; field_simp
    have hRs : R ^ 2 = (BAW.n b σ - 1) ^ 2 + 4 * BAW.m r σ := sq_sqrt (by positivity)
    have : σ ^ 2 * ((γ - (-(BAW.n b σ - 1) + R) / 2) * (γ - (-(BAW.n b σ - 1) - R) / 2)) = 0 := by
      linear_combination 2 * hs + (γ) * hn - hmm - σ ^ 2 / 4 * hRs
    rcases mul_eq_zero.1 this with h | h
    · exact absurd h hσ2.ne'
    · exact h
  cases isCall
  · simp only [cpSign, Bool.false_eq_true, if_false] at hγ hq
    have hγe : γ = (-(BAW.n b σ - 1) - R) / 2 := by
      rcases mul_eq_zero.1 hprod with h | h <;> linarith
    have h1 : Tendsto (fun t => BAW.Q1 t r b σ) atTop (𝓝 γ) := by
      rw [hγe]; exact (hsq.const_sub _).div_const 2
    refine h1.congr' ?_
    filter_upwards [hq, eventually_gt_atTop 0] with t ⟨ha, hb⟩ ht
    have := baw_exponent (b := b) ht hσ hr false ha (by simpa [cpSign] using hb)
    simpa using this.symm
  · simp only [cpSign, if_true, one_mul] at hγ hq
    have hγe : γ = (-(BAW.n b σ - 1) + R) / 2 := by
      rcases mul_eq_zero.1 hprod with h | h <;> linarith
    have h1 : Tendsto (fun t => BAW.Q2 t r b σ) atTop (𝓝 γ) := by
      rw [hγe]; exact (hsq.const_add _).div_const 2
    refine h1.congr' ?_
    filter_upwards [hq, eventually_gt_atTop 0] with t ⟨ha, hb⟩ ht
    have := baw_exponent (b := b) ht hσ hr true ha (by simpa [cpSign] using hb)
    simpa using this.symm

/-- The value of the perpetual option, call or put. -/
noncomputable def perpetual (isCall : Bool) (γ K S : ℝ) : ℝ := if isCall then perpetualCall γ K S else perpetualPut γ K S

/-- **C110.** Critical price and value of the quadratic approximation tend to those of the perpetual option. -/
theorem C110_quad_limit {S K r b σ γ : ℝ} {q A Sx : ℝ → ℝ} (isCall : Bool) (hS : 0 < S) (hK : 0 < K) (hσ : 0 < σ) (hr : 0 < r)
    (hb : b < r) (hs : Stationary r b σ γ) (hγ : if isCall then 1 < γ else γ < 0)
    (hx : ∀ᶠ t in atTop, IsQuadApprox isCall K t r b σ (q t) (A t) (Sx t)) :
    Tendsto q atTop (𝓝 γ) ∧ Tendsto Sx atTop (𝓝 (perpetualLevel γ K)) ∧
    Tendsto (fun t => quadValue isCall K t r b σ (q t) (A t) (Sx t) S) atTop (𝓝 (perpetual isCall γ K S)) := by
  have hside : 0 < cpSign isCall * γ := by
    cases isCall
    · simp only [Bool.false_eq_true, if_false, cpSign] at hγ ⊢; linarith
    · simp only [if_true, cpSign] at hγ ⊢; linarith
  have hγ0 : γ ≠ 0 := fun h => by rw [h, mul_zero] at hside; exact lt_irrefl _ hside
  have hγ1 : 0 < γ / (γ - 1) := by
    cases isCall
    · simp only [Bool.false_eq_true, if_false] at hγ; exact div_pos_of_neg_of_neg hγ (by linarith)
    · simp only [if_true] at hγ; exact div_pos (by linarith) (by linarith)
  have hγ2 : γ - 1 ≠ 0 := fun h => by rw [h, div_zero] at hγ1; exact lt_irrefl _ hγ1
  have hB : 0 < perpetualLevel γ K := mul_pos hγ1 hK
  have hBe : perpetualLevel γ K = K / (1 - 1 / γ) := by
    have : 1 - 1 / γ ≠ 0 := by
      rw [show 1 - 1 / γ = (γ - 1) / γ by field_simp]; exact div_ne_zero hγ2 hγ0
    unfold perpetualLevel; rw [eq_div_iff this]; field_simp
  have hne : 1 - 1 / γ ≠ 0 := fun h => by rw [hBe, h, div_zero] at hB; exact lt_irrefl _ hB
  have hq : Tendsto q atTop (𝓝 γ) := by
    refine baw_exponent_limit isCall hσ hr hs hside ?_
    filter_upwards [hx] with t h using ⟨h.root, h.side⟩
  have hE := tendsto_exp_neg (c := b - r) (by linarith)
  have hF := tendsto_exp_neg (c := -r) (by linarith)
  -- the weight
  have hw : Tendsto (fun t => wt isCall K t r b σ (Sx t)) atTop (𝓝 0) := by
    refine squeeze_zero (fun t => ?_) (fun t => ?_) hE
    · exact mul_nonneg (exp_pos _).le (Φ_nonneg _)
    · exact mul_le_of_le_one_right (exp_pos _).le ((Φ_lt_one _).le)
  have hB2 : Tendsto Sx atTop (𝓝 (perpetualLevel γ K)) := by
    cases isCall
    · have hc : Tendsto (fun t => bsPrice false (Sx t) K t r b σ) atTop (𝓝 0) := by
        have hF' := hF.const_mul K
        rw [mul_zero] at hF'
        refine tendsto_of_tendsto_of_tendsto_of_le_of_le' tendsto_const_nhds hF' ?_ ?_
        · filter_upwards [hx, eventually_gt_atTop 0] with t h ht using (bsPrice_small false h.pos hK ht hσ).1
        · filter_upwards [hx, eventually_gt_atTop 0] with t h ht
          simpa using (bsPrice_small (r := r) (b := b) false h.pos hK ht hσ).2
      have hd := ((hq.inv₀ hγ0).const_sub 1).add (hw.mul (hq.inv₀ hγ0))
      have hl := (hc.const_sub K).div hd (by simpa using hne)
      rw [sub_zero, zero_mul, add_zero, ← one_div, ← hBe] at hl
      refine hl.congr' ?_
      filter_upwards [hx, eventually_gt_atTop 0, hd.eventually_ne (by simpa using hne)] with t h ht hdt
      obtain ⟨h1, h2, h3, h4, h5⟩ := (isQuadApprox_iff hK ht hσ).1 h
      simp only [Pi.div_apply]
      rw [div_eq_iff hdt]
      unfold gap prem at h5
      simp only [cpSign, Bool.false_eq_true, if_false] at h5
      rw [div_eq_mul_inv] at h5
      linear_combination h5
    · have hc : Tendsto (fun t => bsPrice true (Sx t) K t r b σ / Sx t) atTop (𝓝 0) := by
        refine tendsto_of_tendsto_of_tendsto_of_le_of_le' tendsto_const_nhds hE ?_ ?_
        · filter_upwards [hx, eventually_gt_atTop 0] with t h ht
          exact div_nonneg (bsPrice_small true h.pos hK ht hσ).1 h.pos.le
        · filter_upwards [hx, eventually_gt_atTop 0] with t h ht
          rw [div_le_iff₀ h.pos, mul_comm]
          simpa using (bsPrice_small (r := r) (b := b) true h.pos hK ht hσ).2
      have hd := (((hq.inv₀ hγ0).const_sub 1).add (hw.mul (hq.inv₀ hγ0))).sub hc
      have hl := (tendsto_const_nhds (x := K)).div hd (by simpa using hne)
      rw [zero_mul, add_zero, sub_zero, ← one_div, ← hBe] at hl
      refine hl.congr' ?_
      filter_upwards [hx, eventually_gt_atTop 0, hd.eventually_ne (by simpa using hne)] with t h ht hdt
      obtain ⟨h1, h2, h3, h4, h5⟩ := (isQuadApprox_iff hK ht hσ).1 h
      simp only [Pi.div_apply]
      rw [div_eq_iff hdt]
      unfold gap prem at h5
      simp only [cpSign, if_true] at h5
      rw [div_eq_mul_inv (Sx t)] at h5
      have e : Sx t * (bsPrice true (Sx t) K t r b σ / Sx t) = bsPrice true (Sx t) K t r b σ := by field_simp
      linear_combination -h5 + e
  refine ⟨hq, hB2, ?_⟩
  -- the value before the critical price
  have hcS : Tendsto (fun t => bsPrice isCall S K t r b σ) atTop (𝓝 0) := by
    have hlim : Tendsto (fun t => if isCall then S * exp ((b - r) * t) else K * exp (-r * t)) atTop (𝓝 0) := by
      cases isCall
      · simpa using hF.const_mul K
      · simpa using hE.const_mul S
    refine tendsto_of_tendsto_of_tendsto_of_le_of_le' tendsto_const_nhds hlim ?_ ?_
    · filter_upwards [eventually_gt_atTop 0] with t ht using (bsPrice_small isCall hS hK ht hσ).1
    · filter_upwards [eventually_gt_atTop 0] with t ht using (bsPrice_small isCall hS hK ht hσ).2
  have hBγ : perpetualLevel γ K / γ = perpetualLevel γ K - K := by
    unfold perpetualLevel; field_simp; ring
  have hbefore : Tendsto (fun t => bsPrice isCall S K t r b σ + A t * (S / Sx t) ^ q t) atTop
      (𝓝 (cpSign isCall * (perpetualLevel γ K - K) * (S / perpetualLevel γ K) ^ γ)) := by
    have hA : Tendsto A atTop (𝓝 (cpSign isCall * (perpetualLevel γ K - K))) := by
      have h := ((hB2.div hq hγ0).const_mul (cpSign isCall)).mul (hw.const_sub 1)
      rw [sub_zero, mul_one, hBγ] at h
      refine h.congr' ?_
      filter_upwards [hx, eventually_gt_atTop 0] with t h ht
      exact ((isQuadApprox_iff hK ht hσ).1 h).2.2.2.1.symm
    have hp : Tendsto (fun t => (S / Sx t) ^ q t) atTop (𝓝 ((S / perpetualLevel γ K) ^ γ)) :=
      (tendsto_const_nhds.div hB2 hB.ne').rpow hq (Or.inl (div_pos hS hB).ne')
    have := hcS.add (hA.mul hp)
    rwa [zero_add] at this
  have hperp : perpetual isCall γ K S = if 0 < cpSign isCall * (perpetualLevel γ K - S)
      then cpSign isCall * (perpetualLevel γ K - K) * (S / perpetualLevel γ K) ^ γ else cpSign isCall * (S - K) := by
    cases isCall
    · simp only [perpetual, perpetualPut, cpSign, Bool.false_eq_true, if_false]
      by_cases h : S ≤ perpetualLevel γ K
      · rw [if_pos h, if_neg (by linarith)]; ring
      · rw [if_neg h, if_pos (by linarith)]; ring
    · simp only [perpetual, perpetualCall, cpSign, if_true]
      by_cases h : perpetualLevel γ K ≤ S
      · rw [if_pos h, if_neg (by linarith)]; ring
      · rw [if_neg h, if_pos (by linarith)]; ring
  have hdist : Tendsto (fun t => cpSign isCall * (Sx t - S)) atTop (𝓝 (cpSign isCall * (perpetualLevel γ K - S))) :=
    (hB2.sub_const S).const_mul _
  rw [hperp]
  unfold quadValue
  rcases lt_trichotomy 0 (cpSign isCall * (perpetualLevel γ K - S)) with h | h | h
  · rw [if_pos h]
    refine hbefore.congr' ?_
    filter_upwards [hdist.eventually_const_lt h] with t ht
    rw [if_pos ht]
  · rw [if_neg h.not_lt]
    have hSB : S = perpetualLevel γ K := by
      rcases mul_eq_zero.1 h.symm with h | h
      · exact absurd h (cpSign_ne _)
      · linarith
    have hlim : cpSign isCall * (perpetualLevel γ K - K) * (S / perpetualLevel γ K) ^ γ = cpSign isCall * (S - K) := by
      rw [hSB, div_self hB.ne', one_rpow, mul_one]
    rw [hlim] at hbefore
    exact Filter.Tendsto.if' hbefore tendsto_const_nhds
  · rw [if_neg h.le.not_gt]
    refine (tendsto_const_nhds (x := cpSign isCall * (S - K))).congr' ?_
    filter_upwards [hdist.eventually_lt_const h] with t ht
    rw [if_neg ht.le.not_gt]

/-- The error of the search, for long maturities. -/
theorem baw_error_limit {S K r b σ γ c : ℝ} {q Sx : ℝ → ℝ} (hr : 0 < r) (hK : 0 < K) (hσ : 0 < σ) (hb : b < r) (hγ0 : γ ≠ 0)
    (hγ1 : 0 < 1 - 1 / γ) (hq : Tendsto q atTop (𝓝 γ)) (hSx : Tendsto Sx atTop (𝓝 (perpetualLevel γ K)))
    (hc : 1e-6 * (3 - 2 / γ) * perpetualLevel γ K < c) :
    ∀ᶠ t in atTop, ∀ Sk, 0 < Sk →
      |Sk - Sx t| ≤ searchErr K t r b (q t) Sk / ((1 - exp ((b - r) * t)) * (1 - 1 / q t)) →
      (1 + lip t r b σ (q t)) * |Sk - Sx t| + searchErr K t r b (q t) Sk + eurErr K t r b S + premErr t r b (q t) Sk < c := by
  have hBe : perpetualLevel γ K = K / (1 - 1 / γ) := by
    have : γ - 1 ≠ 0 := fun h => by
      rw [show γ = 1 by linarith] at hγ1; norm_num at hγ1
    unfold perpetualLevel; rw [eq_div_iff hγ1.ne']; field_simp
  have hE := tendsto_exp_neg (c := b - r) (by linarith)
  have hF := tendsto_exp_neg (c := -r) (by linarith)
  have hqi : Tendsto (fun t => 1 / q t) atTop (𝓝 (1 / γ)) := tendsto_const_nhds.div hq hγ0
  have hqa : Tendsto (fun t => 1 / |q t|) atTop (𝓝 (1 / |γ|)) := tendsto_const_nhds.div hq.abs (abs_ne_zero.2 hγ0)
  set d : ℝ → ℝ := fun t => (1 - exp ((b - r) * t)) * (1 - 1 / q t) with hd
  have hdl : Tendsto d atTop (𝓝 (1 - 1 / γ)) := by
    have := (hE.const_sub 1).mul (hqi.const_sub 1)
    rwa [sub_zero, one_mul] at this
  set δ : ℝ → ℝ := fun t => 7.5e-8 * (exp ((b - r) * t) * (1 + 1 / |q t|)) with hδ
  have hδl : Tendsto δ atTop (𝓝 0) := by
    have := (hE.mul (hqa.const_add 1)).const_mul 7.5e-8
    rwa [zero_mul, mul_zero] at this
  set a : ℝ → ℝ := fun t => 1e-6 * K + 7.5e-8 * (K * exp (-r * t)) with ha
  have hal : Tendsto a atTop (𝓝 (1e-6 * K)) := by
    have := ((hF.const_mul K).const_mul 7.5e-8).const_add (1e-6 * K)
    rwa [mul_zero, mul_zero, add_zero] at this
  set M : ℝ → ℝ := fun t => (Sx t + a t / d t) / (1 - δ t / d t) with hM
  have hδd : Tendsto (fun t => δ t / d t) atTop (𝓝 0) := by
    have := hδl.div hdl hγ1.ne'
    rwa [zero_div] at this
  have hMl : ∃ m, Tendsto M atTop (𝓝 m) := ⟨_, (hSx.add (hal.div hdl hγ1.ne')).div (hδd.const_sub 1) (by norm_num)⟩
  obtain ⟨m, hMl⟩ := hMl
  have hlip : Tendsto (fun t => lip t r b σ (q t)) atTop (𝓝 (1 - 1 / γ)) := by
    have hs : Tendsto (fun t : ℝ => 1 / (σ * √t)) atTop (𝓝 0) := by
      have h : Tendsto (fun t : ℝ => σ * √t) atTop atTop := tendsto_sqrt_atTop.const_mul_atTop hσ
      refine h.inv_tendsto_atTop.congr fun t => ?_
      rw [Pi.inv_apply, one_div]
    have := (hqi.const_sub 1).add ((hE.mul hs).mul hqa)
    rw [mul_zero, zero_mul, add_zero] at this
    refine this.congr fun t => ?_
    unfold lip; ring
  have heur : Tendsto (fun t => eurErr K t r b S) atTop (𝓝 0) := by
    have := ((hE.const_mul S).add (hF.const_mul K)).const_mul 7.5e-8
    rwa [mul_zero, mul_zero, add_zero, mul_zero] at this
  have hG := ((((hlip.const_add 1).mul ((hal.add (hδl.mul hMl)).div hdl hγ1.ne')).add (hal.add (hδl.mul hMl))).add heur).add
    (hδl.mul hMl)
  have hval : (1 + (1 - 1 / γ)) * ((1e-6 * K + 0 * m) / (1 - 1 / γ)) + (1e-6 * K + 0 * m) + 0 + 0 * m
      = 1e-6 * (3 - 2 / γ) * perpetualLevel γ K := by
    rw [hBe, show 2 / γ = 2 * (1 / γ) by ring]
    generalize 1 / γ = g at hγ1 ⊢
    field_simp
    ring
  rw [hval] at hG
  filter_upwards [hG.eventually_lt_const hc, hdl.eventually_const_lt hγ1, hδd.eventually_lt_const one_pos,
    hlip.eventually_const_lt hγ1] with t ht hdt hδt hlt Sk hSk hle
  have hδ0 : 0 ≤ δ t := by simp only [hδ]; positivity
  have hse : searchErr K t r b (q t) Sk = a t + δ t * Sk := by
    simp only [searchErr, eurErr, premErr, ha, hδ]; ring
  have hpe : premErr t r b (q t) Sk ≤ δ t * Sk := by
    simp only [premErr, hδ]
    have h1 : (7.5e-8 : ℝ) * (exp ((b - r) * t) * (1 + 1 / |q t|)) * Sk
      = 7.5e-8 * (Sk * exp ((b - r) * t)) + 7.5e-8 * (Sk * exp ((b - r) * t) / |q t|) := by ring
    rw [h1]
    have : 0 < Sk * exp ((b - r) * t) := mul_pos hSk (exp_pos _)
    linarith
  rw [hse] at hle
  have hle' : |Sk - Sx t| ≤ (a t + δ t * Sk) / d t := hle
  have hSkM : Sk ≤ M t := by
    simp only [hM]
    rw [le_div_iff₀ (by linarith)]
    have h1 := (le_abs_self (Sk - Sx t)).trans hle'
    rw [add_div] at h1
    have h2 : δ t * Sk / d t = Sk * (δ t / d t) := by ring
    linarith
  have hm := mul_le_mul_of_nonneg_left hSkM hδ0
  refine lt_of_le_of_lt ?_ ht
  rw [hse]
  have h1 : |Sk - Sx t| ≤ (a t + δ t * M t) / d t :=
    hle'.trans ((div_le_div_iff_of_pos_right hdt).2 (by linarith))
  have h2 := mul_le_mul_of_nonneg_left h1 (show 0 ≤ 1 + lip t r b σ (q t) by linarith)
  simp only [Pi.div_apply]
  linarith

/-- **C110.** For `0 ≤ b < r` and long maturities whatever `BAWAmericanApproxOption.call()` returns is within the tolerance
of its search, `3·10⁻⁶` of the perpetual level, of the perpetual call. -/
theorem C110_baw_call_partial {S K r b σ β : ℝ} (hS : 0 < S) (hK : 0 < K) (hσ : 0 < σ) (hb0 : 0 ≤ b) (hb : b < r)
    (hβ : 1 < β) (hs : Stationary r b σ β) :
    ∀ᶠ t in atTop, ∀ x, BAWFloat.Call S K t r b σ x →
      ∃ p, x = num p ∧ |p - perpetualCall β K S| < 3e-6 * perpetualLevel β K := by
  have hr : 0 < r := by linarith
  have hex : ∀ t : ℝ, ∃ y : ℝ × ℝ × ℝ, 0 < t → IsQuadApprox true K t r b σ y.1 y.2.1 y.2.2 := fun t => by
    by_cases ht : 0 < t
    · obtain ⟨q, A, Sx, h, -⟩ := C77_call_spec hK ht hσ hr hb
      exact ⟨(q, A, Sx), fun _ => h⟩
    · exact ⟨(0, 0, 0), fun h => absurd h ht⟩
  choose y hy using hex
  obtain ⟨h1, h2, h3⟩ := C110_quad_limit (S := S) (q := fun t => (y t).1) (A := fun t => (y t).2.1) (Sx := fun t => (y t).2.2)
    true hS hK hσ hr hb hs (by simpa using hβ) (by filter_upwards [eventually_gt_atTop 0] with t ht using hy t ht)
  have hB := hK.trans (level_call hβ hK)
  have hi : 1 / β < 1 := by rw [div_lt_one (by linarith)]; exact hβ
  have hi0 : 0 < 1 / β := one_div_pos.2 (by linarith)
  have hc : 1e-6 * (3 - 2 / β) * perpetualLevel β K < 3e-6 * perpetualLevel β K - 1e-6 * (1 / β) * perpetualLevel β K := by
    have : 0 < 1 / β * perpetualLevel β K := mul_pos hi0 hB
    have e : 2 / β = 2 * (1 / β) := by ring
    rw [e]; nlinarith
  have h4 := baw_error_limit (S := S) hr hK hσ hb (by linarith) (by linarith) h1 h2 hc
  have hε : 0 < 1e-6 * (1 / β) * perpetualLevel β K := by positivity
  filter_upwards [h4, (Metric.tendsto_nhds.1 h3) _ hε, eventually_gt_atTop 0] with t ht hd ht0 x hx
  have hst := sqrt_pos.2 ht0
  have hseed : exp (-(b * t + 2 * σ * √t) * (β - 1)) ≤ β := by
    refine le_trans (exp_le_one_iff.2 ?_) hβ.le
    refine mul_nonpos_of_nonpos_of_nonneg ?_ (by linarith)
    have : 0 ≤ b * t := mul_nonneg hb0 ht0.le
    have : 0 < 2 * σ * √t := by positivity
    linarith
  obtain ⟨p, Sk, rfl, hSk, hdist, hp⟩ := C91_call_partial hS hK ht0 hσ hr hb hβ hs hseed hx (hy t ht0)
  refine ⟨p, rfl, ?_⟩
  have h5 := ht Sk hSk hdist
  rw [Real.dist_eq] at hd
  simp only [perpetual, if_true] at hd
  have := abs_sub_le p (quadValue true K t r b σ (y t).1 (y t).2.1 (y t).2.2 S) (perpetualCall β K S)
  linarith

/-- **C110.** For `b < r`, `r > 0` and long maturities whatever `BAWAmericanApproxOption.put()` returns is within the
tolerance of its search, `3·10⁻⁶ K`, of the perpetual put. -/
theorem C110_baw_put {S K r b σ γ : ℝ} (hS : 0 < S) (hK : 0 < K) (hσ : 0 < σ) (hr : 0 < r) (hb : b < r)
    (hγ : γ < 0) (hs : Stationary r b σ γ) :
    ∀ᶠ t in atTop, ∀ x, BAWFloat.Put S K t r b σ x →
      ∃ p, x = num p ∧ |p - perpetualPut γ K S| < 3e-6 * K := by
  have hex : ∀ t : ℝ, ∃ y : ℝ × ℝ × ℝ, 0 < t → IsQuadApprox false K t r b σ y.1 y.2.1 y.2.2 := fun t => by
    by_cases ht : 0 < t
    · obtain ⟨q, A, Sx, h, -⟩ := C77_put_spec hK ht hσ hr hb.le
      exact ⟨(q, A, Sx), fun _ => h⟩
    · exact ⟨(0, 0, 0), fun h => absurd h ht⟩
  choose y hy using hex
  obtain ⟨h1, h2, h3⟩ := C110_quad_limit (S := S) (q := fun t => (y t).1) (A := fun t => (y t).2.1) (Sx := fun t => (y t).2.2)
    false hS hK hσ hr hb hs (by simpa using hγ) (by filter_upwards [eventually_gt_atTop 0] with t ht using hy t ht)
  have hi : 1 / γ < 0 := one_div_neg.2 hγ
  have hB : perpetualLevel γ K * (1 - 1 / γ) = K := by
    have : γ - 1 ≠ 0 := by linarith
    have : γ ≠ 0 := hγ.ne
    unfold perpetualLevel; field_simp
  have hB0 : 0 < perpetualLevel γ K := mul_pos (div_pos_of_neg_of_neg hγ (by linarith)) hK
  have hc : 1e-6 * (3 - 2 / γ) * perpetualLevel γ K < 3e-6 * K - 1e-6 * (-(1 / γ)) / 2 * perpetualLevel γ K := by
    have : 0 < -(1 / γ) * perpetualLevel γ K := mul_pos (by linarith) hB0
    have e : 2 / γ = 2 * (1 / γ) := by ring
    rw [e]; nlinarith
  have h4 := baw_error_limit (S := S) hr hK hσ hb hγ.ne (by linarith) h1 h2 hc
  have hε : 0 < 1e-6 * (-(1 / γ)) / 2 * perpetualLevel γ K := by
    have : 0 < -(1 / γ) := by linarith
    positivity
  filter_upwards [h4, (Metric.tendsto_nhds.1 h3) _ hε, eventually_gt_atTop 0] with t ht hd ht0 x hx
  obtain ⟨p, Sk, rfl, hSk, hdist, hp⟩ := C91_put_partial hS hK ht0 hσ hr hb.le hx (hy t ht0)
  refine ⟨p, rfl, ?_⟩
  have hq1 : 1 / (y t).1 < 1 := baw_exponent_gt ht0 hσ hr hb.le false (hy t ht0).root (hy t ht0).side
  have hE1 : exp ((b - r) * t) < 1 := exp_lt_one_iff.2 (mul_neg_of_neg_of_pos (by linarith) ht0)
  have h5 := ht Sk hSk (hdist.trans ?_)
  · rw [Real.dist_eq] at hd
    simp only [perpetual, Bool.false_eq_true, if_false] at hd
    have := abs_sub_le p (quadValue false K t r b σ (y t).1 (y t).2.1 (y t).2.2 S) (perpetualPut γ K S)
    linarith
  · refine div_le_div_of_nonneg_left ?_ (mul_pos (by linarith) (by linarith)) (mul_le_mul_of_nonneg_right ?_ (by linarith))
    · unfold searchErr eurErr premErr; positivity
    · have := mul_le_of_le_one_right (exp_pos ((b - r) * t)).le (Φ_lt_one (-(BAW.d1 K t b σ (min Sk (y t).2.2)))).le
      linarith

/-- **C110, refuted for negative carry.** For `b < 0` and long maturities `BAWAmericanApproxOption.call()` returns `S - K` at
every spot, while the American call is worth more by a fixed amount below the perpetual level. -/
theorem C110_baw_call_fails {S K r b σ β : ℝ} (hS : 0 < S) (hK : 0 < K) (hσ : 0 < σ) (hr : 0 < r) (hb : b < 0)
    (hβ : 1 < β) (hs : Stationary r b σ β) :
    (∀ᶠ t in atTop, ∀ x, BAWFloat.Call S K t r b σ x ↔ x = num (S - K)) ∧
    (S < perpetualLevel β K → ∃ δ > 0, ∀ᶠ t in atTop, S - K + δ < american true S K t r b σ) := by
  constructor
  · have h : Tendsto (fun t : ℝ => √t * (b * √t + 2 * σ)) atTop atBot := by
      refine tendsto_sqrt_atTop.atTop_mul_atBot₀ ?_
      exact tendsto_atBot_add_const_right _ _ (tendsto_sqrt_atTop.const_mul_atTop_of_neg hb)
    filter_upwards [h.eventually_le_atBot (-1), eventually_gt_atTop 0] with t ht ht0 x
    refine C91_call_fails_carry hS hK ht0 hσ hr ?_ x
    have := mul_self_sqrt ht0.le
    nlinarith
  · intro h
    have hb' : b < r := by linarith
    have e := (C110_exponent hσ hb').2 β hβ hs
    rw [e] at h
    exact (C110_bs93_call_fails hS hK hσ hb hb').2 h

/-- The search does return for long maturities: calls with `0 ≤ b < r < 10⁸ σ²`. -/
theorem C110_baw_returns {S K r b σ : ℝ} (hS : 0 < S) (hK : 0 < K) (hσ : 0 < σ) (hb0 : 0 ≤ b) (hb : b < r)
    (hr : r < 1e8 * σ ^ 2) : ∀ᶠ t in atTop, ∃ p, BAWFloat.Call S K t r b σ (num p) := by
  have hr0 : 0 < r := by linarith
  filter_upwards [eventually_ge_atTop (1 / (1e8 * σ ^ 2 - r))] with t ht
  have hd : 0 < 1e8 * σ ^ 2 - r := by linarith
  have ht0 : 0 < t := (one_div_pos.2 hd).trans_le ht
  rw [div_le_iff₀ hd] at ht
  obtain ⟨q, A, Sx, h, -⟩ := C77_call_spec hK ht0 hσ hr0 hb
  obtain ⟨p, -, -, hp, -⟩ := C92_call hS hK ht0 hσ hr0 hb0 hb (by linarith) h
  exact ⟨p, hp⟩

/-- Witness: the parameters of `C110_example`; the call returns and is near the perpetual call. -/
theorem C110_baw_example : ∀ᶠ t in atTop, ∃ p, BAWFloat.Call 42 40 t 0.06 0.02 0.2 (num p) ∧
    |p - perpetualCall (√3) 40 42| < 3e-6 * perpetualLevel (√3) 40 := by
  obtain ⟨h1, h2, -⟩ := C110_example
  filter_upwards [C110_baw_call_partial (S := 42) (K := 40) (by norm_num) (by norm_num) (by norm_num) (by norm_num) (by norm_num) h2 h1,
    C110_baw_returns (S := 42) (K := 40) (r := 0.06) (b := 0.02) (σ := 0.2) (by norm_num) (by norm_num) (by norm_num) (by norm_num)
      (by norm_num) (by norm_num)] with t ht ⟨p, hp⟩
  obtain ⟨p', e, h⟩ := ht _ hp
  injection e with e
  exact ⟨p, hp, e ▸ h⟩

end Verif.Props
