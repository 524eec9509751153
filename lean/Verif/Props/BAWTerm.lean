import Verif.Props.BAWFloat
import Verif.Lemmas.CNDCont

/-!
# C92: the search for the critical price ends

The Newton step of the Barone-Adesi–Whaley search uses a slope that is not the derivative (C78).  On the side from which
the critical price is approached slowly this slope is too steep, so the step never passes the critical price by more
than the tolerance; on the other side every step moves by a minimum amount.
-/
namespace Verif.Props
open Real Verif.Spec QuadApprox Set

/-! ## Two tools -/

theorem growth_plain {f f' : ℝ → ℝ} {a b N : ℝ} (hab : a ≤ b) (hc : ContinuousOn f (Icc a b))
    (hd : ∀ x ∈ Ioo a b, HasDerivAt f (f' x) x) (hN : ∀ x ∈ Ioo a b, f' x ≤ N) : f b - f a ≤ N * (b - a) := by
  refine Convex.image_sub_le_mul_sub_of_deriv_le (convex_Icc a b) hc ?_ ?_ _ (left_mem_Icc.2 hab) _ (right_mem_Icc.2 hab) hab
  · rw [interior_Icc]; exact fun x hx => (hd x hx).differentiableAt.differentiableWithinAt
  · rw [interior_Icc]; intro x hx; rw [(hd x hx).deriv]; exact hN x hx

theorem growth_one {f f' : ℝ → ℝ} {a b N : ℝ} (z : ℝ) (hab : a ≤ b) (hc : ContinuousOn f (Icc a b))
    (hd : ∀ x ∈ Ioo a b, x ≠ z → HasDerivAt f (f' x) x) (hN : ∀ x ∈ Ioo a b, x ≠ z → f' x ≤ N) :
    f b - f a ≤ N * (b - a) := by
  by_cases hz : z ∈ Ioo a b
  · have h1 := growth_plain (f' := f') (N := N) hz.1.le (hc.mono (Icc_subset_Icc le_rfl hz.2.le))
      (fun x hx => hd x ⟨hx.1, hx.2.trans hz.2⟩ hx.2.ne) (fun x hx => hN x ⟨hx.1, hx.2.trans hz.2⟩ hx.2.ne)
    have h2 := growth_plain (f' := f') (N := N) hz.2.le (hc.mono (Icc_subset_Icc hz.1.le le_rfl))
      (fun x hx => hd x ⟨hz.1.trans hx.1, hx.2⟩ hx.1.ne') (fun x hx => hN x ⟨hz.1.trans hx.1, hx.2⟩ hx.1.ne')
    linarith
  · exact growth_plain hab hc (fun x hx => hd x hx fun h => hz (h ▸ hx)) (fun x hx => hN x hx fun h => hz (h ▸ hx))

/-- A function continuous on an interval, with a derivative at most `N` off two points, grows by at most `N` times the
length. -/
theorem growth_two {f f' : ℝ → ℝ} {a b N : ℝ} (y z : ℝ) (hab : a ≤ b) (hc : ContinuousOn f (Icc a b))
    (hd : ∀ x ∈ Ioo a b, x ≠ y → x ≠ z → HasDerivAt f (f' x) x) (hN : ∀ x ∈ Ioo a b, x ≠ y → x ≠ z → f' x ≤ N) :
    f b - f a ≤ N * (b - a) := by
  by_cases hy : y ∈ Ioo a b
  · have h1 := growth_one (f' := f') (N := N) z hy.1.le (hc.mono (Icc_subset_Icc le_rfl hy.2.le))
      (fun x hx => hd x ⟨hx.1, hx.2.trans hy.2⟩ hx.2.ne) (fun x hx => hN x ⟨hx.1, hx.2.trans hy.2⟩ hx.2.ne)
    have h2 := growth_one (f' := f') (N := N) z hy.2.le (hc.mono (Icc_subset_Icc hy.1.le le_rfl))
      (fun x hx => hd x ⟨hy.1.trans hx.1, hx.2⟩ hx.1.ne') (fun x hx => hN x ⟨hy.1.trans hx.1, hx.2⟩ hx.1.ne')
    linarith
  · exact growth_one z hab hc (fun x hx => hd x hx fun h => hy (h ▸ hx)) (fun x hx => hN x hx fun h => hy (h ▸ hx))

/-- A loop ends if its states stay in a set, one side `good` is not left while the loop runs, and every step lowers a
bounded quantity by at least `δ` on its side. -/
theorem loop_ends {c : ℝ → Prop} {f : ℝ → ℝ} {I good : ℝ → Prop} {m₁ m₂ : ℝ → ℝ} {B δ : ℝ} (hδ : 0 < δ)
    (hI : ∀ s, I s → c s → I (f s)) (h₁ : ∀ s, I s → 0 ≤ m₁ s ∧ m₁ s ≤ B) (h₂ : ∀ s, I s → 0 ≤ m₂ s)
    (hgood : ∀ s, I s → c s → good s → m₁ (f s) ≤ m₁ s - δ ∧ (c (f s) → good (f s)))
    (hbad : ∀ s, I s → c s → ¬ good s → m₂ (f s) ≤ m₂ s - δ) (s : ℝ) (hs : I s) : ∃ s', Py.Loop c f s s' := by
  obtain ⟨n, hn⟩ := exists_nat_gt ((B + m₂ s + δ) / δ)
  rw [div_lt_iff₀ hδ] at hn
  refine Py.Loop.exists_of_bound (P := fun n s => I s ∧
    (¬ c s ∨ (good s ∧ m₁ s < n * δ) ∨ (¬ good s ∧ m₂ s + B + δ < n * δ))) ?_ ?_ n s ⟨hs, ?_⟩
  · rintro s ⟨hi, h | h | h⟩ hc
    · exact h hc
    · have := (h₁ s hi).1; simp only [Nat.cast_zero, zero_mul] at h; linarith [h.2]
    · have := (h₁ s hi); have := h₂ s hi; simp only [Nat.cast_zero, zero_mul] at h; linarith [h.2]
  · rintro n s ⟨hi, h⟩ hc
    refine ⟨hI s hi hc, ?_⟩
    push_cast at h
    by_cases hc' : c (f s)
    swap
    · exact .inl hc'
    right
    rcases h with h | ⟨hg, h⟩ | ⟨hg, h⟩
    · exact absurd hc h
    · obtain ⟨p1, p2⟩ := hgood s hi hc hg
      exact .inl ⟨p2 hc', by linarith⟩
    · have p := hbad s hi hc hg
      by_cases hg' : good (f s)
      · refine .inl ⟨hg', ?_⟩
        have := (h₁ _ (hI s hi hc)).2
        have := h₂ s hi
        linarith
      · exact .inr ⟨hg', by linarith⟩
  · right
    have := h₁ s hs
    have := h₂ s hs
    by_cases hg : good s
    · exact .inl ⟨hg, by linarith⟩
    · exact .inr ⟨hg, by linarith⟩

/-! ## The call -/

section call
variable {K t r b σ s x : ℝ}

theorem baw_d1_deriv (hx : 0 < x) (hK : 0 < K) : HasDerivAt (BAW.d1 K t b σ) (1 / (x * (σ * √t))) x := by
  have h := diff_D1_S (t := t) (b := b) (σ := σ) hx hK
  have e : BAW.d1 K t b σ = fun s => D1 s K t b σ := by funext s; exact baw_d1 ..
  rw [e]; exact h

theorem baw_density (hx : 0 < x) (hK : 0 < K) (ht : 0 < t) (hσ : 0 < σ) :
    x * exp ((b - r) * t) * φ (BAW.d1 K t b σ x) = K * exp (-r * t) * φ (BAW.d1 K t b σ x - σ * √t) := by
  rw [baw_d1]; exact density_identity hx hK ht hσ

theorem baw_d1_mono (hK : 0 < K) (ht : 0 < t) (hσ : 0 < σ) (hs : 0 < s) (hsx : s ≤ x) :
    BAW.d1 K t b σ s ≤ BAW.d1 K t b σ x := by
  have := sqrt_pos.2 ht
  unfold BAW.d1
  have h1 : log (s / K) ≤ log (x / K) := log_le_log (by positivity) (div_le_div_of_nonneg_right hsx hK.le)
  exact div_le_div_of_nonneg_right (by linarith) (by positivity)

theorem baw_d1_eq (hK : 0 < K) (ht : 0 < t) (hσ : 0 < σ) (hx : 0 < x) {y : ℝ} (h : BAW.d1 K t b σ x = y) :
    x = K * exp (y * (σ * √t) - (b + σ ^ 2 / 2) * t) := by
  have := sqrt_pos.2 ht
  unfold BAW.d1 at h
  rw [div_eq_iff (by positivity)] at h
  rw [show y * (σ * √t) - (b + σ ^ 2 / 2) * t = log (x / K) by linarith, exp_log (by positivity)]
  field_simp

theorem baw_d1_pos (hK : 0 < K) (ht : 0 < t) (hσ : 0 < σ) (hb : 0 ≤ b) (hx : K ≤ x) : 0 < BAW.d1 K t b σ x := by
  have := sqrt_pos.2 ht
  unfold BAW.d1
  have h1 : 0 ≤ log (x / K) := log_nonneg ((one_le_div hK).2 hx)
  have : 0 < (b + σ ^ 2 / 2) * t := by positivity
  exact div_pos (by linarith) (by positivity)

/-- Exercise value minus `RHS`, as the loop of the call compares it. -/
noncomputable def hCall (K t r b σ s : ℝ) : ℝ := s - K - BAW.rhsCall K t r b σ s

theorem hCall_eq : hCall K t r b σ x = x - K - (x * exp ((b - r) * t) * CND (BAW.d1 K t b σ x)
    - K * exp (-r * t) * CND (BAW.d1 K t b σ x - σ * √t))
    - (1 - exp ((b - r) * t) * CND (BAW.d1 K t b σ x)) * x / BAW.Q2 t r b σ := by
  unfold hCall BAW.rhsCall gbsCallNum GBS.d2Expr
  rw [show GBS.d1Expr x K t b σ = BAW.d1 K t b σ x by rw [baw_d1, D1]]
  ring

/-- The same with the jump of `CND` at zero closed in the strike term. -/
noncomputable def hCallC (K t r b σ x : ℝ) : ℝ :=
  x - K - (x * exp ((b - r) * t) * CND (BAW.d1 K t b σ x)
    - K * exp (-r * t) * CNDError.cndCont (BAW.d1 K t b σ x - σ * √t))
    - (1 - exp ((b - r) * t) * CND (BAW.d1 K t b σ x)) * x / BAW.Q2 t r b σ

theorem hCallC_near (hK : 0 < K) (ht : 0 < t) (hr : 0 < r) : |hCallC K t r b σ x - hCall K t r b σ x| ≤ 1e-8 * K := by
  have h := CNDError.cndCont_near (BAW.d1 K t b σ x - σ * √t)
  rw [hCall_eq, hCallC]
  have hR : exp (-r * t) ≤ 1 := exp_le_one_iff.2 (by nlinarith)
  rw [show ∀ A B C D F G : ℝ, A - (B - K * C * D) - F - (A - (B - K * C * G) - F) = K * (C * (D - G)) by intros; ring]
  rw [abs_mul, abs_mul, abs_of_pos hK, abs_of_pos (exp_pos _), mul_comm]
  refine mul_le_mul_of_nonneg_right ?_ hK.le
  exact (mul_le_mul hR h (abs_nonneg _) zero_le_one).trans (by norm_num)

/-- The slope of `hCallC`. -/
noncomputable def slopeCall (K t r b σ x : ℝ) : ℝ :=
  (1 - exp ((b - r) * t) * CND (BAW.d1 K t b σ x)) * (1 - 1 / BAW.Q2 t r b σ)
    + (exp ((b - r) * t) * CNDError.cndDens (BAW.d1 K t b σ x) / BAW.Q2 t r b σ
      - exp ((b - r) * t) * CNDError.cndDens (BAW.d1 K t b σ x)
      + K * exp (-r * t) * CNDError.cndDens (BAW.d1 K t b σ x - σ * √t) / x) / (σ * √t)

theorem hCallC_deriv (hK : 0 < K) (ht : 0 < t) (hσ : 0 < σ) (hr : 0 < r) (hx : 0 < x) (h1 : BAW.d1 K t b σ x ≠ 0)
    (h2 : BAW.d1 K t b σ x - σ * √t ≠ 0) : HasDerivAt (hCallC K t r b σ) (slopeCall K t r b σ x) x := by
  have hst := sqrt_pos.2 ht
  have hQ := (baw_roots (b := b) ht hσ hr).2.1
  have hd := baw_d1_deriv (t := t) (b := b) (σ := σ) hx hK
  have c1 := (CNDError.hasDerivAt_CND h1).comp x hd
  have c2 := (CNDError.hasDerivAt_cndCont h2).comp x (hd.sub_const (σ * √t))
  have i : HasDerivAt (fun x : ℝ => x) 1 x := hasDerivAt_id x
  have h := ((i.sub_const K).sub (((i.mul_const (exp ((b - r) * t))).mul c1).sub (c2.const_mul (K * exp (-r * t))))).sub
    (((((c1.const_mul (exp ((b - r) * t))).const_sub 1).mul i)).div_const (BAW.Q2 t r b σ))
  refine HasDerivAt.congr_deriv h ?_
  unfold slopeCall
  simp only [Function.comp]
  generalize CND (BAW.d1 K t b σ x) = C
  generalize CNDError.cndDens (BAW.d1 K t b σ x) = f
  generalize CNDError.cndDens (BAW.d1 K t b σ x - σ * √t) = g
  generalize exp ((b - r) * t) = E
  generalize exp (-r * t) = R
  generalize BAW.Q2 t r b σ = q at *
  field_simp
  ring

theorem baw_Q2_gt (ht : 0 < t) (hσ : 0 < σ) (hr : 0 < r) (hb : b ≤ r) : 1 < BAW.Q2 t r b σ := by
  obtain ⟨-, h2, h3⟩ := baw_roots (b := b) ht hσ hr
  have h := baw_exponent_gt ht hσ hr hb true (h3 _ (.inr rfl)) (by simpa [cpSign] using h2)
  rwa [div_lt_one h2] at h

/-- Ahead of a point `s ≥ K` the slope is at most the one used in the step from `s`. -/
theorem slopeCall_le (hK : 0 < K) (ht : 0 < t) (hσ : 0 < σ) (hr : 0 < r) (hb0 : 0 ≤ b) (hb : b ≤ r)
    (hQ' : BAW.Q2 t r b σ ≤ 19000) (hs : K ≤ s) (hsx : s ≤ x) :
    slopeCall K t r b σ x ≤ 1 - BAW.biCall K t r b σ s := by
  have hst := sqrt_pos.2 ht
  have hQ := baw_Q2_gt ht hσ hr hb
  have hx : 0 < x := by linarith
  have hC := CNDError.CND_strictMono.monotone (baw_d1_mono (b := b) hK ht hσ (by linarith) hsx)
  have hCs := (CNDError.CND_pos_lt_one (baw_d1_pos hK ht hσ hb0 hs)).1
  have e1 := abs_le.1 (CNDError.cndDens_error (BAW.d1 K t b σ x))
  have e2 := abs_le.1 (CNDError.cndDens_error (BAW.d1 K t b σ x - σ * √t))
  have hid := baw_density (r := r) (b := b) hx hK ht hσ
  have hφ := CNDError.φ_le (BAW.d1 K t b σ x)
  have hRE : exp (-r * t) ≤ exp ((b - r) * t) := exp_le_exp.2 (by nlinarith)
  have hR := exp_pos (-r * t)
  have hE := exp_pos ((b - r) * t)
  have hv : 0 < σ * √t := by positivity
  unfold slopeCall BAW.biCall
  generalize CND (BAW.d1 K t b σ x) = C at *
  generalize CND (BAW.d1 K t b σ s) = C' at *
  generalize CNDError.cndDens (BAW.d1 K t b σ x) = f at *
  generalize CNDError.cndDens (BAW.d1 K t b σ x - σ * √t) = g at *
  generalize φ (BAW.d1 K t b σ x) = p at *
  generalize φ (BAW.d1 K t b σ x - σ * √t) = p' at *
  generalize exp ((b - r) * t) = E at *
  generalize exp (-r * t) = R at *
  generalize BAW.Q2 t r b σ = q at *
  generalize σ * √t = v at *
  have hq0 : 0 < q := by linarith
  have hq1 : 1 / q < 1 := by rw [div_lt_one hq0]; exact hQ
  have h1 : (1 - E * C) * (1 - 1 / q) ≤ (1 - E * C') * (1 - 1 / q) := by
    refine mul_le_mul_of_nonneg_right ?_ (by linarith)
    nlinarith
  have hKx : K * R / x ≤ E := by
    rw [div_le_iff₀ hx]; nlinarith
  have hKx0 : 0 ≤ K * R / x := by positivity
  have h2 : K * R * g / x ≤ E * p + 2.6e-6 * E := by
    have : K * R * g / x = K * R * p' / x + K * R / x * (g - p') := by ring
    rw [this, ← hid, show x * E * p / x = E * p by field_simp]
    have : K * R / x * (g - p') ≤ E * 2.6e-6 := by
      refine (mul_le_mul_of_nonneg_left e2.2 hKx0).trans (mul_le_mul_of_nonneg_right hKx (by norm_num))
    linarith
  have h3 : E * f / q - E * f + K * R * g / x ≤ E * C' / q := by
    have h4 : E * f / q ≤ E * (0.4) / q := div_le_div_of_nonneg_right (mul_le_mul_of_nonneg_left (by linarith [e1.2]) hE.le) hq0.le
    have h5 : E * (p - 2.6e-6) ≤ E * f := mul_le_mul_of_nonneg_left (by linarith [e1.1]) hE.le
    have h6 : E * 0.4 / q + 5.2e-6 * E ≤ E * C' / q := by
      rw [← sub_nonneg, show E * C' / q - (E * 0.4 / q + 5.2e-6 * E) = E * (C' - 0.4 - 5.2e-6 * q) / q by field_simp; ring]
      exact div_nonneg (mul_nonneg hE.le (by linarith)) hq0.le
    linarith
  have h7 := div_le_div_of_nonneg_right h3 hv.le
  have e : 1 - (E * C' * (1 - 1 / q) + (1 - E * C' / v) / q) = (1 - E * C') * (1 - 1 / q) + E * C' / q / v := by
    field_simp; ring
  rw [e]
  linarith

theorem stepCall_eq (ht : 0 < t) (hσ : 0 < σ) (hr : 0 < r) (hb : b ≤ r) :
    (K + BAW.rhsCall K t r b σ s - BAW.biCall K t r b σ s * s) / (1 - BAW.biCall K t r b σ s)
      = s - hCall K t r b σ s / (1 - BAW.biCall K t r b σ s) := by
  have := baw_biCall_lt (K := K) ht hσ hr hb s
  unfold hCall
  rw [div_eq_iff (by linarith), sub_mul, div_mul_cancel₀ _ (by linarith)]
  ring

/-- The step keeps the price at or above the strike. -/
theorem stepCall_ge (hK : 0 < K) (ht : 0 < t) (hσ : 0 < σ) (hr : 0 < r) (hb0 : 0 ≤ b) (hb : b ≤ r) (hs : K ≤ s) :
    K ≤ (K + BAW.rhsCall K t r b σ s - BAW.biCall K t r b σ s * s) / (1 - BAW.biCall K t r b σ s) := by
  have hst := sqrt_pos.2 ht
  have hQ := baw_Q2_gt ht hσ hr hb
  have hbi := baw_biCall_lt (K := K) ht hσ hr hb s
  have hv : 0 < σ * √t := by positivity
  have hC := CNDError.CND_strictMono.monotone (show BAW.d1 K t b σ s - σ * √t ≤ BAW.d1 K t b σ s by linarith)
  obtain ⟨c0, c1⟩ := CNDError.CND_mem (BAW.d1 K t b σ s)
  have c2 := (CNDError.CND_mem (BAW.d1 K t b σ s - σ * √t)).1
  have hRE : exp (-r * t) ≤ exp ((b - r) * t) := exp_le_exp.2 (by nlinarith)
  have hE1 : exp ((b - r) * t) ≤ 1 := exp_le_one_iff.2 (mul_nonpos_of_nonpos_of_nonneg (by linarith) ht.le)
  have hR := exp_pos (-r * t)
  have hE := exp_pos ((b - r) * t)
  rw [le_div_iff₀ (by linarith)]
  have e : BAW.rhsCall K t r b σ s = s - K - hCall K t r b σ s := by unfold hCall; ring
  rw [e, hCall_eq]
  unfold BAW.biCall
  generalize CND (BAW.d1 K t b σ s) = C at *
  generalize CND (BAW.d1 K t b σ s - σ * √t) = C' at *
  generalize exp ((b - r) * t) = E at *
  generalize exp (-r * t) = R at *
  generalize BAW.Q2 t r b σ = q at *
  generalize σ * √t = v at *
  have hq0 : 0 < q := by linarith
  have h1 : R * C' ≤ E * C := mul_le_mul hRE hC c2.le hE.le
  have h2 : 0 ≤ (1 - E * C) / q := div_nonneg (by nlinarith) hq0.le
  have h3 : 0 ≤ (s - K) * (E * C / v / q) := mul_nonneg (by linarith) (by positivity)
  have h4 : 0 ≤ K * (E * C - R * C' + (1 - E * C) / q) := mul_nonneg hK.le (by linarith)
  have e2 : K + (s - K - (s - K - (s * E * C - K * R * C') - (1 - E * C) * s / q))
      - (E * C * (1 - 1 / q) + (1 - E * C / v) / q) * s - K * (1 - (E * C * (1 - 1 / q) + (1 - E * C / v) / q))
      = K * (E * C - R * C' + (1 - E * C) / q) + (s - K) * (E * C / v / q) := by
    field_simp; ring
  linarith

/-- The compared difference grows at least linearly. -/
theorem hCall_lower (hK : 0 < K) (ht : 0 < t) (hσ : 0 < σ) (hr : 0 < r) (hb : b ≤ r) (hx : 0 < x) :
    (1 - exp ((b - r) * t)) * (1 - 1 / BAW.Q2 t r b σ) * x - K ≤ hCall K t r b σ x := by
  have hQ := baw_Q2_gt ht hσ hr hb
  have c1 := (CNDError.CND_mem (BAW.d1 K t b σ x)).2
  have c2 := (CNDError.CND_mem (BAW.d1 K t b σ x - σ * √t)).1
  have hR := exp_pos (-r * t)
  have hE := exp_pos ((b - r) * t)
  rw [hCall_eq]
  generalize CND (BAW.d1 K t b σ x) = C at *
  generalize CND (BAW.d1 K t b σ x - σ * √t) = C' at *
  generalize exp ((b - r) * t) = E at *
  generalize exp (-r * t) = R at *
  generalize BAW.Q2 t r b σ = q at *
  have hq0 : 0 < q := by linarith
  have hq1 : 1 / q < 1 := by rw [div_lt_one hq0]; exact hQ
  have h0 : 0 ≤ x * E * (1 - C) := mul_nonneg (by positivity) (by linarith)
  have h2 : 0 ≤ K * R * C' := by positivity
  have e : x - K - (x * E * C - K * R * C') - (1 - E * C) * x / q
      = (1 - E) * (1 - 1 / q) * x - K + K * R * C' + x * E * (1 - C) * (1 - 1 / q) := by field_simp; ring
  have h3 : 0 ≤ x * E * (1 - C) * (1 - 1 / q) := mul_nonneg h0 (by linarith)
  rw [e]
  linarith

theorem slopeUsedCall_le (ht : 0 < t) (hσ : 0 < σ) (hr : 0 < r) (hb : b ≤ r) :
    1 - BAW.biCall K t r b σ s ≤ 1 + 1 / (σ * √t) := by
  have hst := sqrt_pos.2 ht
  have hQ := baw_Q2_gt ht hσ hr hb
  obtain ⟨c0, c1⟩ := CNDError.CND_mem (BAW.d1 K t b σ s)
  have hE1 : exp ((b - r) * t) ≤ 1 := exp_le_one_iff.2 (mul_nonpos_of_nonpos_of_nonneg (by linarith) ht.le)
  have hE := exp_pos ((b - r) * t)
  have hv : 0 < σ * √t := by positivity
  unfold BAW.biCall
  generalize CND (BAW.d1 K t b σ s) = C at *
  generalize exp ((b - r) * t) = E at *
  generalize BAW.Q2 t r b σ = q at *
  generalize σ * √t = v at *
  have hq0 : 0 < q := by linarith
  have hq1 : 1 / q < 1 := by rw [div_lt_one hq0]; exact hQ
  have hq2 : 0 < 1 / q := by positivity
  have hEC : E * C ≤ 1 := by nlinarith
  have hEC0 : 0 < E * C := by positivity
  have h1 : (1 - E * C) * (1 - 1 / q) ≤ 1 := by nlinarith
  have h2 : E * C / v / q ≤ 1 / v := by
    rw [div_div, div_le_div_iff₀ (by positivity) hv]
    nlinarith
  have e : 1 - (E * C * (1 - 1 / q) + (1 - E * C / v) / q) = (1 - E * C) * (1 - 1 / q) + E * C / v / q := by ring
  rw [e]
  linarith

/-- A step from below the critical price does not pass it by more than the tolerance. -/
theorem stepCall_up (hK : 0 < K) (ht : 0 < t) (hσ : 0 < σ) (hr : 0 < r) (hb0 : 0 ≤ b) (hb : b ≤ r)
    (hQ' : BAW.Q2 t r b σ ≤ 19000) (hs : K ≤ s) (hneg : hCall K t r b σ s < 0) :
    hCall K t r b σ (s - hCall K t r b σ s / (1 - BAW.biCall K t r b σ s)) ≤ 2e-8 * K := by
  have hbi := baw_biCall_lt (K := K) ht hσ hr hb s
  have hN : 0 < 1 - BAW.biCall K t r b σ s := by linarith
  have hlt : s < s - hCall K t r b σ s / (1 - BAW.biCall K t r b σ s) := by
    have := div_neg_of_neg_of_pos hneg hN; linarith
  have hmul : (1 - BAW.biCall K t r b σ s) * (s - hCall K t r b σ s / (1 - BAW.biCall K t r b σ s) - s)
      = - hCall K t r b σ s := by
    rw [sub_sub_cancel_left, mul_neg, mul_div_cancel₀ _ hN.ne']
  have slope : ∀ x, s ≤ x → slopeCall K t r b σ x ≤ 1 - BAW.biCall K t r b σ s := fun x hx =>
    slopeCall_le hK ht hσ hr hb0 hb hQ' hs hx
  generalize 1 - BAW.biCall K t r b σ s = N at *
  generalize hy : s - hCall K t r b σ s / N = y at *
  have hg := growth_one (f := hCallC K t r b σ) (f' := slopeCall K t r b σ) (N := N)
    (K * exp (σ * √t * (σ * √t) - (b + σ ^ 2 / 2) * t)) hlt.le ?_ ?_ ?_
  · have n1 := abs_le.1 (hCallC_near (b := b) (σ := σ) (x := s) hK ht hr)
    have n2 := abs_le.1 (hCallC_near (b := b) (σ := σ) (x := y) hK ht hr)
    linarith [n1.2, n2.1]
  · intro x hx
    have hx0 : 0 < x := by linarith [hx.1]
    have hd := (baw_d1_deriv (t := t) (b := b) (σ := σ) hx0 hK).continuousAt
    have hC : ContinuousAt (fun x => CND (BAW.d1 K t b σ x)) x :=
      ((CNDError.hasDerivAt_CND (baw_d1_pos hK ht hσ hb0 (by linarith [hx.1])).ne').continuousAt.comp hd)
    have hC2 : ContinuousAt (fun x => CNDError.cndCont (BAW.d1 K t b σ x - σ * √t)) x :=
      (CNDError.continuous_cndCont.continuousAt.comp (hd.sub continuousAt_const))
    refine ContinuousAt.continuousWithinAt ?_
    unfold hCallC
    exact ((continuousAt_id.sub continuousAt_const).sub (((continuousAt_id.mul continuousAt_const).mul hC).sub
      (continuousAt_const.mul hC2))).sub (((continuousAt_const.sub (continuousAt_const.mul hC)).mul continuousAt_id).div_const _)
  · intro x hx hz
    have hx0 : 0 < x := by linarith [hx.1]
    refine hCallC_deriv hK ht hσ hr hx0 (baw_d1_pos hK ht hσ hb0 (by linarith [hx.1])).ne' fun h => hz ?_
    exact baw_d1_eq hK ht hσ hx0 (by linarith)
  · exact fun x hx _ => slope x hx.1.le

theorem baw_Q2_le (ht : 0 < t) (hσ : 0 < σ) (hr : 0 < r) (hb0 : 0 ≤ b) (hb : b ≤ r) (h : 1 + r * t ≤ 1e8 * (σ ^ 2 * t)) :
    BAW.Q2 t r b σ ≤ 19000 := by
  obtain ⟨-, h2, h3⟩ := baw_roots (b := b) ht hσ hr
  have hq := baw_Q2_gt ht hσ hr hb
  have e := h3 _ (.inr rfl)
  generalize BAW.Q2 t r b σ = q at *
  by_contra hlt
  rw [not_le] at hlt
  have hE : exp (-r * t) ≤ 1 / (1 + r * t) := by
    have h1 := add_one_le_exp (r * t)
    rw [show -r * t = -(r * t) by ring, exp_neg, ← one_div]
    exact one_div_le_one_div_of_le (by positivity) (by linarith)
  have hrt : 0 < r * t := by positivity
  have hG : r / (1 - exp (-r * t)) * t ≤ 1 + r * t := by
    have h1 : r * t / (1 + r * t) ≤ 1 - exp (-r * t) := by
      have : r * t / (1 + r * t) = 1 - 1 / (1 + r * t) := by field_simp; ring
      linarith
    have h0 : 0 < r * t / (1 + r * t) := by positivity
    rw [div_mul_eq_mul_div, div_le_iff₀ (by linarith)]
    have := mul_le_mul_of_nonneg_left h1 (by positivity : 0 ≤ 1 + r * t)
    rw [mul_div_cancel₀ _ (by positivity)] at this
    exact this
  rw [← e] at hG
  have hs : 0 < σ ^ 2 * t := by positivity
  have h4 : (1 / 2 * σ ^ 2 * q * (q - 1) + b * q) * t = 1 / 2 * (σ ^ 2 * t) * (q * (q - 1)) + b * q * t := by ring
  have h5 : 0 ≤ b * q * t := by positivity
  have h6 : (19000 : ℝ) * 18999 ≤ q * (q - 1) := mul_le_mul hlt.le (by linarith) (by norm_num) (by linarith)
  have h7 := mul_le_mul_of_nonneg_left h6 (by positivity : 0 ≤ 1 / 2 * (σ ^ 2 * t))
  nlinarith

theorem seedCall_ge (hK : 0 < K) (ht : 0 < t) (hσ : 0 < σ) (hr : 0 < r) (hb0 : 0 ≤ b) (hb : b < r) :
    K ≤ BAW.seedCall K t r b σ := by
  have hq := q2u_gt hσ hr.le hb
  have hst := sqrt_pos.2 ht
  rw [seedCall_eq hK hσ hr.le hb, le_div_iff₀ (by linarith)]
  refine mul_le_mul_of_nonneg_left ?_ hK.le
  have : exp (-(b * t + 2 * σ * √t) * (q2u r b σ - 1)) ≤ 1 := by
    refine exp_le_one_iff.2 (mul_nonpos_of_nonpos_of_nonneg ?_ (by linarith))
    have : 0 ≤ b * t + 2 * σ * √t := by positivity
    linarith
  linarith

/-- **C92, call.** With `0 ≤ b < r` and a volatility that is not tiny the search started at the seed ends, at a price not
below the strike. -/
theorem C92_search_call (hK : 0 < K) (ht : 0 < t) (hσ : 0 < σ) (hr : 0 < r) (hb0 : 0 ≤ b) (hb : b < r)
    (hv : 1 + r * t ≤ 1e8 * (σ ^ 2 * t)) :
    ∃ Sk, K ≤ Sk ∧ BAW.NewtonCall K t r b σ (BAW.seedCall K t r b σ) Sk := by
  have hQ' := baw_Q2_le ht hσ hr hb0 hb.le hv
  have hQ := baw_Q2_gt ht hσ hr hb.le
  have hst := sqrt_pos.2 ht
  have hE1 : exp ((b - r) * t) < 1 := exp_lt_one_iff.2 (mul_neg_of_neg_of_pos (by linarith) ht)
  have hq1 : 1 / BAW.Q2 t r b σ < 1 := by rw [div_lt_one (by linarith)]; exact hQ
  have hm : 0 < (1 - exp ((b - r) * t)) * (1 - 1 / BAW.Q2 t r b σ) := mul_pos (by linarith) (by linarith)
  obtain ⟨m, hmd⟩ : ∃ m, (1 - exp ((b - r) * t)) * (1 - 1 / BAW.Q2 t r b σ) = m := ⟨_, rfl⟩
  have low := fun x => hCall_lower (x := x) hK ht hσ hr hb.le
  rw [hmd] at hm low
  have hs0 := seedCall_ge hK ht hσ hr hb0 hb
  generalize BAW.seedCall K t r b σ = s₀ at *
  set M := 1 + 1 / (σ * √t) with hM
  have hM0 : 0 < M := by positivity
  set U := max s₀ (2 * K / m) with hU
  let I : ℝ → Prop := fun s => K ≤ s ∧ s ≤ U
  have hcond : ∀ s, |s - K - BAW.rhsCall K t r b σ s| / K > 0.000001 ↔ 1e-6 * K < |hCall K t r b σ s| := fun s => by
    rw [gt_iff_lt, lt_div_iff₀ hK]; unfold hCall; norm_num
  have inv : ∀ s, I s → |s - K - BAW.rhsCall K t r b σ s| / K > 0.000001 →
      I ((K + BAW.rhsCall K t r b σ s - BAW.biCall K t r b σ s * s) / (1 - BAW.biCall K t r b σ s)) := by
    rintro s ⟨h1, h2⟩ hc
    refine ⟨stepCall_ge hK ht hσ hr hb0 hb.le h1, ?_⟩
    have hN := baw_biCall_lt (K := K) ht hσ hr hb.le s
    have hge := stepCall_ge hK ht hσ hr hb0 hb.le h1
    rw [stepCall_eq ht hσ hr hb.le] at hge ⊢
    rcases lt_or_ge (hCall K t r b σ s) 0 with hn | hn
    · have hup := stepCall_up hK ht hσ hr hb0 hb.le hQ' h1 hn
      refine le_trans ?_ (le_max_right _ _)
      rw [le_div_iff₀ hm]
      have := low _ (hK.trans_le hge)
      nlinarith
    · have := div_nonneg hn (by linarith : 0 ≤ 1 - BAW.biCall K t r b σ s)
      linarith
  suffices h : ∃ Sk, BAW.NewtonCall K t r b σ s₀ Sk by
    obtain ⟨Sk, hL⟩ := h
    exact ⟨Sk, (hL.inv inv ⟨hs0, le_max_left _ _⟩ : I Sk).1, hL⟩
  refine loop_ends (c := fun s => |s - K - BAW.rhsCall K t r b σ s| / K > 0.000001)
    (f := fun s => (K + BAW.rhsCall K t r b σ s - BAW.biCall K t r b σ s * s) / (1 - BAW.biCall K t r b σ s))
    (I := I) (good := fun s => hCall K t r b σ s < 0) (m₁ := fun s => U - s) (m₂ := fun s => s - K) (B := U - K)
    (δ := 1e-6 * K / M) (by positivity) inv (fun s hs => ⟨by linarith [hs.2], by linarith [hs.1]⟩)
    (fun s hs => by linarith [hs.1]) ?_ ?_ s₀ ⟨hs0, le_max_left _ _⟩
  · rintro s ⟨h1, h2⟩ hc hn
    rw [hcond] at hc ⊢
    rw [stepCall_eq ht hσ hr hb.le]
    have hN := baw_biCall_lt (K := K) ht hσ hr hb.le s
    have hNM := slopeUsedCall_le (K := K) (s := s) ht hσ hr hb.le
    have hup := stepCall_up hK ht hσ hr hb0 hb.le hQ' h1 hn
    rw [abs_of_neg hn] at hc
    constructor
    · have : 1e-6 * K / M ≤ -hCall K t r b σ s / (1 - BAW.biCall K t r b σ s) :=
        div_le_div₀ (by linarith) hc.le (by linarith) hNM
      rw [neg_div] at this
      linarith
    · intro hc'
      by_contra hge
      rw [not_lt] at hge
      rw [abs_of_nonneg hge] at hc'
      norm_num at hup hc'
      linarith
  · rintro s ⟨h1, h2⟩ hc hn
    rw [hcond] at hc
    rw [stepCall_eq ht hσ hr hb.le]
    rw [not_lt] at hn
    have hN := baw_biCall_lt (K := K) ht hσ hr hb.le s
    have hNM := slopeUsedCall_le (K := K) (s := s) ht hσ hr hb.le
    rw [abs_of_nonneg hn] at hc
    have : 1e-6 * K / M ≤ hCall K t r b σ s / (1 - BAW.biCall K t r b σ s) :=
      div_le_div₀ (by linarith) hc.le (by linarith) hNM
    linarith

end call

/-! ## The put -/

section put
variable {K t r b σ s x : ℝ}

/-- Exercise value minus `RHS`, as the loop of the put compares it. -/
noncomputable def hPut (K t r b σ s : ℝ) : ℝ := K - s - BAW.rhsPut K t r b σ s

theorem hPut_eq : hPut K t r b σ x = K - x - (K * exp (-r * t) * CND (-(BAW.d1 K t b σ x - σ * √t))
    - x * exp ((b - r) * t) * CND (-(BAW.d1 K t b σ x)))
    + (1 - exp ((b - r) * t) * CND (-(BAW.d1 K t b σ x))) * x / BAW.Q1 t r b σ := by
  unfold hPut BAW.rhsPut gbsPutNum GBS.d2Expr
  rw [show GBS.d1Expr x K t b σ = BAW.d1 K t b σ x by rw [baw_d1, D1]]
  ring

/-- The same with the jumps of `CND` at zero closed. -/
noncomputable def hPutC (K t r b σ x : ℝ) : ℝ :=
  K - x - (K * exp (-r * t) * CNDError.cndCont (-(BAW.d1 K t b σ x - σ * √t))
    - x * exp ((b - r) * t) * CNDError.cndCont (-(BAW.d1 K t b σ x)))
    + (1 - exp ((b - r) * t) * CNDError.cndCont (-(BAW.d1 K t b σ x))) * x / BAW.Q1 t r b σ

theorem hPutC_near (hK : 0 < K) (ht : 0 < t) (hσ : 0 < σ) (hr : 0 < r) (hx : 0 < x) (hxK : x ≤ K) :
    |hPutC K t r b σ x - hPut K t r b σ x| ≤ 1e-8 * K * (1 + exp ((b - r) * t) * (1 - 1 / BAW.Q1 t r b σ)) := by
  have h1 := CNDError.cndCont_near (-(BAW.d1 K t b σ x - σ * √t))
  have h2 := CNDError.cndCont_near (-(BAW.d1 K t b σ x))
  have hQ := (baw_roots (b := b) ht hσ hr).1
  rw [hPut_eq, hPutC]
  have hR : exp (-r * t) ≤ 1 := exp_le_one_iff.2 (by nlinarith)
  have hR0 := exp_pos (-r * t)
  have hE := exp_pos ((b - r) * t)
  generalize exp ((b - r) * t) = E at *
  generalize exp (-r * t) = R at *
  generalize BAW.Q1 t r b σ = q at *
  rw [show ∀ A C D C' D' : ℝ, A - (K * R * C - x * E * D) + (1 - E * D) * x / q
      - (A - (K * R * C' - x * E * D') + (1 - E * D') * x / q)
      = x * (E * (1 - 1 / q)) * (D - D') - K * R * (C - C') by intros; ring]
  have hq : 0 < E * (1 - 1 / q) := mul_pos hE (by have := one_div_neg.2 hQ; linarith)
  refine (abs_sub _ _).trans ?_
  rw [abs_mul (x * _), abs_mul (K * R), abs_of_pos (mul_pos hx hq), abs_of_pos (mul_pos hK hR0)]
  have a1 : x * (E * (1 - 1 / q)) * |CNDError.cndCont (-(BAW.d1 K t b σ x)) - CND (-(BAW.d1 K t b σ x))|
      ≤ K * (E * (1 - 1 / q)) * 1e-8 :=
    mul_le_mul (mul_le_mul_of_nonneg_right hxK hq.le) h2 (abs_nonneg _) (by positivity)
  have a2 : K * R * |CNDError.cndCont (-(BAW.d1 K t b σ x - σ * √t)) - CND (-(BAW.d1 K t b σ x - σ * √t))|
      ≤ K * 1 * 1e-8 :=
    mul_le_mul (mul_le_mul_of_nonneg_left hR hK.le) h1 (abs_nonneg _) (by positivity)
  linarith

/-- Minus the slope of `hPutC`. -/
noncomputable def slopePut (K t r b σ x : ℝ) : ℝ :=
  (1 - exp ((b - r) * t) * CNDError.cndCont (-(BAW.d1 K t b σ x))) * (1 - 1 / BAW.Q1 t r b σ)
    + (exp ((b - r) * t) * CNDError.cndDens (-(BAW.d1 K t b σ x)) * (1 - 1 / BAW.Q1 t r b σ)
      - K * exp (-r * t) * CNDError.cndDens (-(BAW.d1 K t b σ x - σ * √t)) / x) / (σ * √t)

theorem hPutC_deriv (hK : 0 < K) (ht : 0 < t) (hσ : 0 < σ) (hr : 0 < r) (hx : 0 < x) (h1 : BAW.d1 K t b σ x ≠ 0)
    (h2 : BAW.d1 K t b σ x - σ * √t ≠ 0) :
    HasDerivAt (fun x => -hPutC K t r b σ x) (slopePut K t r b σ x) x := by
  have hst := sqrt_pos.2 ht
  have hQ := (baw_roots (b := b) ht hσ hr).1.ne
  have hd := baw_d1_deriv (t := t) (b := b) (σ := σ) hx hK
  have c1 := (CNDError.hasDerivAt_cndCont (neg_ne_zero.2 h1)).comp x hd.neg
  have c2 := (CNDError.hasDerivAt_cndCont (neg_ne_zero.2 h2)).comp x (hd.sub_const (σ * √t)).neg
  have i : HasDerivAt (fun x : ℝ => x) 1 x := hasDerivAt_id x
  have h := (((i.const_sub K).sub ((c2.const_mul (K * exp (-r * t))).sub ((i.mul_const (exp ((b - r) * t))).mul c1))).add
    (((((c1.const_mul (exp ((b - r) * t))).const_sub 1).mul i)).div_const (BAW.Q1 t r b σ))).neg
  refine HasDerivAt.congr_deriv h ?_
  unfold slopePut
  simp only [Function.comp, Pi.neg_apply]
  generalize CNDError.cndCont (-(BAW.d1 K t b σ x)) = C
  generalize CNDError.cndDens (-(BAW.d1 K t b σ x)) = f
  generalize CNDError.cndDens (-(BAW.d1 K t b σ x - σ * √t)) = g
  generalize exp ((b - r) * t) = E
  generalize exp (-r * t) = R
  generalize BAW.Q1 t r b σ = q at *
  field_simp
  ring

/-- Below a point `s` with `d1 ≤ 0.2` the slope is at most the one used in the step from `s`, up to the jump of `CND`. -/
theorem slopePut_le (hK : 0 < K) (ht : 0 < t) (hσ : 0 < σ) (hr : 0 < r) (hx : 0 < x) (hxs : x ≤ s)
    (hd : BAW.d1 K t b σ s ≤ 0.2) (hQ' : -2500 ≤ BAW.Q1 t r b σ) :
    slopePut K t r b σ x ≤ 1 + BAW.biPut K t r b σ s + exp ((b - r) * t) * 1e-8 * (1 - 1 / BAW.Q1 t r b σ) := by
  have hst := sqrt_pos.2 ht
  have hQ := (baw_roots (b := b) ht hσ hr).1
  have hC := CNDError.CND_strictMono.monotone (neg_le_neg (baw_d1_mono (b := b) hK ht hσ hx hxs))
  have hCc := abs_le.1 (CNDError.cndCont_near (-(BAW.d1 K t b σ x)))
  have hCs : 0.42019 ≤ CND (-(BAW.d1 K t b σ s)) := by
    have h1 := CNDError.Φ_ge (x := -(BAW.d1 K t b σ s)) (by linarith)
    have h2 := abs_le.1 (CNDError.CND_error (-(BAW.d1 K t b σ s)))
    have := h2.1
    norm_num at h1 this ⊢
    linarith
  have e1 := (abs_le.1 (CNDError.cndDens_error (-(BAW.d1 K t b σ x)))).2
  have e2 := CNDError.le_cndDens (-(BAW.d1 K t b σ x - σ * √t))
  have hid := baw_density (r := r) (b := b) hx hK ht hσ
  have hφ := CNDError.φ_le (BAW.d1 K t b σ x)
  have hφ0 := φ_pos (BAW.d1 K t b σ x)
  rw [φ_neg] at e1 e2
  have hR := exp_pos (-r * t)
  have hE := exp_pos ((b - r) * t)
  have hv : 0 < σ * √t := by positivity
  unfold slopePut BAW.biPut
  generalize CND (-(BAW.d1 K t b σ x)) = C at *
  generalize CND (-(BAW.d1 K t b σ s)) = C' at *
  generalize CNDError.cndCont (-(BAW.d1 K t b σ x)) = G at *
  generalize CNDError.cndDens (-(BAW.d1 K t b σ x)) = f at *
  generalize CNDError.cndDens (-(BAW.d1 K t b σ x - σ * √t)) = g at *
  generalize φ (BAW.d1 K t b σ x) = p at *
  generalize φ (BAW.d1 K t b σ x - σ * √t) = p' at *
  generalize exp ((b - r) * t) = E at *
  generalize exp (-r * t) = R at *
  obtain ⟨w, hw⟩ : ∃ w, BAW.Q1 t r b σ = -w := ⟨-BAW.Q1 t r b σ, by ring⟩
  rw [hw] at hQ hQ' ⊢
  generalize σ * √t = v at *
  have hw0 : 0 < w := by linarith
  have e0 : 1 - 1 / -w = 1 + 1 / w := by rw [div_neg]; ring
  rw [e0]
  have hw1 : 0 < 1 + 1 / w := by positivity
  have h1 : (1 - E * G) * (1 + 1 / w) ≤ (1 - E * C') * (1 + 1 / w) + E * 1e-8 * (1 + 1 / w) := by
    rw [← add_mul]
    refine mul_le_mul_of_nonneg_right ?_ hw1.le
    have : E * (C' - 1e-8) ≤ E * G := mul_le_mul_of_nonneg_left (by linarith [hCc.1]) hE.le
    linarith
  have h2 : (1 - 1.4e-5) * (E * p) ≤ K * R * g / x := by
    rw [le_div_iff₀ hx]
    have := mul_le_mul_of_nonneg_left e2 (mul_pos hK hR).le
    nlinarith
  have h3 : E * f * (1 + 1 / w) - K * R * g / x ≤ E * C' / w := by
    have h4 : E * f * (1 + 1 / w) ≤ E * (p + 2.6e-6) * (1 + 1 / w) :=
      mul_le_mul_of_nonneg_right (mul_le_mul_of_nonneg_left (by linarith) hE.le) hw1.le
    have h6 : E * (p + 2.6e-6) * (1 + 1 / w) - (1 - 1.4e-5) * (E * p) ≤ E * C' / w := by
      rw [← sub_nonneg, show E * C' / w - (E * (p + 2.6e-6) * (1 + 1 / w) - (1 - 1.4e-5) * (E * p))
        = E * (C' - p - 2.6e-6 - (2.6e-6 + 1.4e-5 * p) * w) / w by field_simp; ring]
      refine div_nonneg (mul_nonneg hE.le ?_) hw0.le
      have : (2.6e-6 + 1.4e-5 * p) * w ≤ (2.6e-6 + 1.4e-5 * 0.4) * 2500 :=
        mul_le_mul (by linarith) (by linarith) hw0.le (by norm_num)
      norm_num at this hCs hφ ⊢
      linarith
    linarith
  have h7 := div_le_div_of_nonneg_right h3 hv.le
  have e : 1 + (-E * C' * (1 + 1 / w) - (1 + E * C' / v) / -w) = (1 - E * C') * (1 + 1 / w) + E * C' / w / v := by
    rw [div_neg]; field_simp; ring
  rw [e]
  linarith

theorem stepPut_eq (ht : 0 < t) (hσ : 0 < σ) (hr : 0 < r) (hb : b ≤ r) :
    (K - BAW.rhsPut K t r b σ s + BAW.biPut K t r b σ s * s) / (1 + BAW.biPut K t r b σ s)
      = s + hPut K t r b σ s / (1 + BAW.biPut K t r b σ s) := by
  have := baw_biPut_gt (K := K) ht hσ hr hb s
  unfold hPut
  rw [div_eq_iff (by linarith), add_mul, div_mul_cancel₀ _ (by linarith)]
  ring

/-- The step keeps the price at or below the strike. -/
theorem stepPut_le (hK : 0 < K) (ht : 0 < t) (hσ : 0 < σ) (hr : 0 < r) (hb0 : b ≤ 0) (hs : s ≤ K) :
    (K - BAW.rhsPut K t r b σ s + BAW.biPut K t r b σ s * s) / (1 + BAW.biPut K t r b σ s) ≤ K := by
  have hst := sqrt_pos.2 ht
  have hQ := (baw_roots (b := b) ht hσ hr).1
  have hbi := baw_biPut_gt (K := K) ht hσ hr (hb0.trans hr.le) s
  have hv : 0 < σ * √t := by positivity
  have hC := CNDError.CND_strictMono.monotone (show -(BAW.d1 K t b σ s) ≤ -(BAW.d1 K t b σ s - σ * √t) by linarith)
  obtain ⟨c0, c1⟩ := CNDError.CND_mem (-(BAW.d1 K t b σ s))
  have hRE : exp ((b - r) * t) ≤ exp (-r * t) := exp_le_exp.2 (by nlinarith)
  have hR1 : exp (-r * t) ≤ 1 := exp_le_one_iff.2 (by nlinarith)
  have hE := exp_pos ((b - r) * t)
  have hR := exp_pos (-r * t)
  rw [div_le_iff₀ (by linarith)]
  have e : BAW.rhsPut K t r b σ s = K - s - hPut K t r b σ s := by unfold hPut; ring
  rw [e, hPut_eq]
  unfold BAW.biPut
  generalize CND (-(BAW.d1 K t b σ s)) = C at *
  generalize CND (-(BAW.d1 K t b σ s - σ * √t)) = C' at *
  generalize exp ((b - r) * t) = E at *
  generalize exp (-r * t) = R at *
  obtain ⟨w, hw⟩ : ∃ w, BAW.Q1 t r b σ = -w := ⟨-BAW.Q1 t r b σ, by ring⟩
  rw [hw] at hQ ⊢
  generalize σ * √t = v at *
  have hw0 : 0 < w := by linarith
  have h1 : E * C ≤ R * C' := mul_le_mul hRE hC c0.le hR.le
  have h2 : 0 ≤ (1 - E * C) / w := div_nonneg (by nlinarith) hw0.le
  have h3 : 0 ≤ (K - s) * (E * C / v / w) := mul_nonneg (by linarith) (by positivity)
  have h4 : 0 ≤ K * (R * C' - E * C + (1 - E * C) / w) := mul_nonneg hK.le (by linarith)
  have e2 : K * (1 + (-E * C * (1 - 1 / -w) - (1 + E * C / v) / -w))
      - (K - (K - s - (K - s - (K * R * C' - s * E * C) + (1 - E * C) * s / -w))
      + (-E * C * (1 - 1 / -w) - (1 + E * C / v) / -w) * s)
      = K * (R * C' - E * C + (1 - E * C) / w) + (K - s) * (E * C / v / w) := by
    simp only [div_neg]
    field_simp; ring
  linarith

theorem slopeUsedPut_le (ht : 0 < t) (hσ : 0 < σ) (hr : 0 < r) (hb : b ≤ r) :
    1 + BAW.biPut K t r b σ s ≤ 1 - 1 / BAW.Q1 t r b σ - 1 / (σ * √t * BAW.Q1 t r b σ) := by
  have hst := sqrt_pos.2 ht
  have hQ := (baw_roots (b := b) ht hσ hr).1
  obtain ⟨c0, c1⟩ := CNDError.CND_mem (-(BAW.d1 K t b σ s))
  have hE1 : exp ((b - r) * t) ≤ 1 := exp_le_one_iff.2 (mul_nonpos_of_nonpos_of_nonneg (by linarith) ht.le)
  have hE := exp_pos ((b - r) * t)
  have hv : 0 < σ * √t := by positivity
  unfold BAW.biPut
  generalize CND (-(BAW.d1 K t b σ s)) = C at *
  generalize exp ((b - r) * t) = E at *
  obtain ⟨w, hw⟩ : ∃ w, BAW.Q1 t r b σ = -w := ⟨-BAW.Q1 t r b σ, by ring⟩
  rw [hw] at hQ ⊢
  generalize σ * √t = v at *
  have hw0 : 0 < w := by linarith
  have hEC : E * C ≤ 1 := by nlinarith
  have hEC0 : 0 < E * C := by positivity
  have hw1 : 0 < 1 + 1 / w := by positivity
  have h1 : (1 - E * C) * (1 + 1 / w) ≤ 1 + 1 / w := mul_le_of_le_one_left hw1.le (by linarith)
  have h2 : E * C / w / v ≤ 1 / (v * w) := by
    rw [div_div, mul_comm v w]
    exact div_le_div_of_nonneg_right hEC (by positivity)
  have e : 1 + (-E * C * (1 - 1 / -w) - (1 + E * C / v) / -w) = (1 - E * C) * (1 + 1 / w) + E * C / w / v := by
    simp only [div_neg]; field_simp; ring
  rw [e, mul_neg, div_neg, div_neg]
  linarith

theorem baw_G (ht : 0 < t) (hr : 0 < r) : 1 ≤ r / (1 - exp (-r * t)) * t ∧ r / (1 - exp (-r * t)) * t ≤ 1 + r * t := by
  have hrt : 0 < r * t := by positivity
  have hE : exp (-r * t) ≤ 1 / (1 + r * t) := by
    have h1 := add_one_le_exp (r * t)
    rw [show -r * t = -(r * t) by ring, exp_neg, ← one_div]
    exact one_div_le_one_div_of_le (by positivity) (by linarith)
  have h1 : r * t / (1 + r * t) ≤ 1 - exp (-r * t) := by
    have : r * t / (1 + r * t) = 1 - 1 / (1 + r * t) := by field_simp; ring
    linarith
  have h0 : 0 < r * t / (1 + r * t) := by positivity
  rw [div_mul_eq_mul_div, div_le_iff₀ (by linarith), le_div_iff₀ (by linarith)]
  constructor
  · have := add_one_le_exp (-r * t); linarith
  · have := mul_le_mul_of_nonneg_left h1 (by positivity : 0 ≤ 1 + r * t)
    rw [mul_div_cancel₀ _ (by positivity)] at this
    exact this

theorem baw_Q1_ge (ht : 0 < t) (hσ : 0 < σ) (hr : 0 < r) (hb : b ≤ 0) (h : 1 + r * t ≤ 3e6 * (σ ^ 2 * t)) :
    -2500 ≤ BAW.Q1 t r b σ := by
  obtain ⟨h1, -, h3⟩ := baw_roots (b := b) ht hσ hr
  have e := h3 _ (.inl rfl)
  have hG := (baw_G ht hr).2
  rw [← e] at hG
  generalize BAW.Q1 t r b σ = q at *
  by_contra hlt
  rw [not_le] at hlt
  have hs : 0 < σ ^ 2 * t := by positivity
  have h4 : (1 / 2 * σ ^ 2 * q * (q - 1) + b * q) * t = 1 / 2 * (σ ^ 2 * t) * (-q * (-q + 1)) + -b * -q * t := by ring
  have h5 : 0 ≤ -b * -q * t := mul_nonneg (mul_nonneg (by linarith) (by linarith)) ht.le
  have h6 : (2500 : ℝ) * 2501 ≤ -q * (-q + 1) := mul_le_mul (by linarith) (by linarith) (by norm_num) (by linarith)
  have h7 := mul_le_mul_of_nonneg_left h6 (by positivity : 0 ≤ 1 / 2 * (σ ^ 2 * t))
  nlinarith

/-- The discounted inverse exponent is bounded. -/
theorem baw_disc (ht : 0 < t) (hσ : 0 < σ) (hr : 0 < r) (hb : b ≤ 0) (hd : (b + σ ^ 2 / 2) * t ≤ 0.2 * (σ * √t)) :
    exp ((b - r) * t) * (1 - 1 / BAW.Q1 t r b σ) ≤ 6 := by
  obtain ⟨h1, -, h3⟩ := baw_roots (b := b) ht hσ hr
  have e := h3 _ (.inl rfl)
  have hG := (baw_G ht hr).1
  rw [← e] at hG
  obtain ⟨w, hw⟩ : ∃ w, BAW.Q1 t r b σ = -w := ⟨-BAW.Q1 t r b σ, by ring⟩
  rw [hw] at h1 hG ⊢
  have hst := sqrt_pos.2 ht
  have hv2 : (σ * √t) ^ 2 = σ ^ 2 * t := by rw [mul_pow, sq_sqrt ht.le]
  have hv : 0 < σ * √t := by positivity
  generalize hvd : σ * √t = v at *
  have hw0 : 0 < w := by linarith
  obtain ⟨y, hy⟩ : ∃ y, -b * t = y := ⟨_, rfl⟩
  have hy0 : 0 ≤ y := by rw [← hy]; exact mul_nonneg (by linarith) ht.le
  have hq : 1 ≤ 1 / 2 * v ^ 2 * (w * (w + 1)) + y * w := by
    rw [hv2, ← hy]; linarith
  have hvy : v ^ 2 ≤ 0.4 * v + 2 * y := by rw [hv2, ← hy]; linarith
  have hE : exp ((b - r) * t) ≤ 1 / (1 + y) := by
    have h4 := add_one_le_exp y
    have h5 : exp ((b - r) * t) ≤ exp (-y) := exp_le_exp.2 (by rw [← hy]; nlinarith)
    refine h5.trans ?_
    rw [exp_neg, ← one_div]
    exact one_div_le_one_div_of_le (by positivity) (by linarith)
  have key : 1 + 1 / w ≤ 6 * (1 + y) := by
    rcases le_or_gt 1 w with h | h
    · have : 1 / w ≤ 1 := by rw [div_le_one hw0]; exact h
      linarith
    · have hvb : v ≤ 1 + 3.5 * y := by
        by_contra hc
        rw [not_le] at hc
        nlinarith
      have h6 : 1 ≤ w * (0.4 * v + 3 * y) := by
        have : 1 / 2 * v ^ 2 * (w * (w + 1)) ≤ w * v ^ 2 := by
          have : w * (w + 1) ≤ w * 2 := mul_le_mul_of_nonneg_left (by linarith) hw0.le
          nlinarith [sq_nonneg v]
        have := mul_le_mul_of_nonneg_left hvy hw0.le
        linarith
      have h7 : 1 / w ≤ 0.4 * v + 3 * y := by rw [div_le_iff₀ hw0]; linarith
      linarith
  have e0 : 1 - 1 / -w = 1 + 1 / w := by rw [div_neg]; ring
  rw [e0]
  calc exp ((b - r) * t) * (1 + 1 / w) ≤ 1 / (1 + y) * (6 * (1 + y)) :=
        mul_le_mul hE key (by positivity) (by positivity)
    _ = 6 := by field_simp

/-- A step from above the critical price does not pass it by more than the tolerance. -/
theorem stepPut_down (hK : 0 < K) (ht : 0 < t) (hσ : 0 < σ) (hr : 0 < r) (hb : b ≤ 0)
    (hd : (b + σ ^ 2 / 2) * t ≤ 0.2 * (σ * √t)) (hQ' : -2500 ≤ BAW.Q1 t r b σ) (hs : 0 < s) (hsK : s ≤ K)
    (hneg : hPut K t r b σ s < 0) :
    hPut K t r b σ (s + hPut K t r b σ s / (1 + BAW.biPut K t r b σ s)) ≤ 5e-7 * K := by
  have hbr : b ≤ r := hb.trans hr.le
  have hbi := baw_biPut_gt (K := K) ht hσ hr hbr s
  have hQ := (baw_roots (b := b) ht hσ hr).1
  have hst := sqrt_pos.2 ht
  have hN : 0 < 1 + BAW.biPut K t r b σ s := by linarith
  have hpos := baw_stepPut_pos hK ht hσ hr hbr hs
  rw [stepPut_eq ht hσ hr hbr] at hpos
  have hlt : s + hPut K t r b σ s / (1 + BAW.biPut K t r b σ s) < s := by
    have := div_neg_of_neg_of_pos hneg hN; linarith
  have hmul : (1 + BAW.biPut K t r b σ s) * (s - (s + hPut K t r b σ s / (1 + BAW.biPut K t r b σ s)))
      = - hPut K t r b σ s := by
    rw [sub_add_cancel_left, mul_neg, mul_div_cancel₀ _ hN.ne']
  have hdisc := baw_disc ht hσ hr hb hd
  have hds : BAW.d1 K t b σ s ≤ 0.2 := by
    refine (baw_d1_mono hK ht hσ hs hsK).trans ?_
    unfold BAW.d1
    rw [div_self hK.ne', log_one, zero_add, div_le_iff₀ (by positivity)]
    exact hd
  have slope : ∀ x, 0 < x → x ≤ s → slopePut K t r b σ x
      ≤ 1 + BAW.biPut K t r b σ s + exp ((b - r) * t) * 1e-8 * (1 - 1 / BAW.Q1 t r b σ) := fun x hx hxs =>
    slopePut_le hK ht hσ hr hx hxs hds hQ'
  have near := fun x (hx : 0 < x) (hxK : x ≤ K) => hPutC_near (b := b) (x := x) hK ht hσ hr hx hxK
  have hD0 : 0 < exp ((b - r) * t) * (1 - 1 / BAW.Q1 t r b σ) :=
    mul_pos (exp_pos _) (by have := one_div_neg.2 hQ; linarith)
  rw [show exp ((b - r) * t) * 1e-8 * (1 - 1 / BAW.Q1 t r b σ) = 1e-8 * (exp ((b - r) * t) * (1 - 1 / BAW.Q1 t r b σ)) by
    ring] at slope
  generalize exp ((b - r) * t) * (1 - 1 / BAW.Q1 t r b σ) = D at *
  generalize 1 + BAW.biPut K t r b σ s = N at *
  generalize hy : s + hPut K t r b σ s / N = y at *
  have hg := growth_two (f := fun x => -hPutC K t r b σ x) (f' := slopePut K t r b σ) (N := N + 1e-8 * D)
    (K * exp (0 * (σ * √t) - (b + σ ^ 2 / 2) * t))
    (K * exp (σ * √t * (σ * √t) - (b + σ ^ 2 / 2) * t)) hlt.le ?_ ?_ ?_
  · have n1 := abs_le.1 (near s hs hsK)
    have n2 := abs_le.1 (near y hpos (hlt.le.trans hsK))
    have h1 : 1e-8 * D * (s - y) ≤ 1e-8 * 6 * K := mul_le_mul (by linarith) (by linarith) (by linarith) (by norm_num)
    have h2 : 1e-8 * K * (1 + D) ≤ 1e-8 * K * 7 := mul_le_mul_of_nonneg_left (by linarith) (by positivity)
    have n1' := n1.2
    have n2' := n2.1
    rw [add_mul, hmul] at hg
    norm_num at h1 h2 n1' n2' hg ⊢
    linarith
  · intro x hx
    have hx0 : 0 < x := by linarith [hx.1]
    have hdc := (baw_d1_deriv (t := t) (b := b) (σ := σ) hx0 hK).continuousAt
    have hC : ContinuousAt (fun x => CNDError.cndCont (-(BAW.d1 K t b σ x))) x :=
      (CNDError.continuous_cndCont.continuousAt.comp hdc.neg)
    have hC2 : ContinuousAt (fun x => CNDError.cndCont (-(BAW.d1 K t b σ x - σ * √t))) x :=
      (CNDError.continuous_cndCont.continuousAt.comp (hdc.sub continuousAt_const).neg)
    refine ContinuousAt.continuousWithinAt ?_
    unfold hPutC
    exact (((continuousAt_const.sub continuousAt_id).sub ((continuousAt_const.mul hC2).sub
      ((continuousAt_id.mul continuousAt_const).mul hC))).add
      (((continuousAt_const.sub (continuousAt_const.mul hC)).mul continuousAt_id).div_const _)).neg
  · intro x hx hz1 hz2
    have hx0 : 0 < x := by linarith [hx.1]
    refine hPutC_deriv hK ht hσ hr hx0 (fun h => hz1 ?_) fun h => hz2 ?_
    · exact baw_d1_eq hK ht hσ hx0 h
    · exact baw_d1_eq hK ht hσ hx0 (by linarith)
  · exact fun x hx _ _ => slope x (by linarith [hx.1]) hx.2.le

theorem seedPut_le (hK : 0 < K) (ht : 0 < t) (hσ : 0 < σ) (hr : 0 < r) (hb : b ≤ 0) : BAW.seedPut K t r b σ ≤ K := by
  have hq := q1u_neg (b := b) hσ hr
  have hst := sqrt_pos.2 ht
  have e : BAW.seedPut K t r b σ = K / (1 - 1 / q1u r b σ) + (K - K / (1 - 1 / q1u r b σ)) *
        exp ((b * t - 2 * σ * √t) * K / (K - K / (1 - 1 / q1u r b σ))) := rfl
  have hi : 1 / q1u r b σ < 0 := one_div_neg.2 hq
  have h1 : 1 < 1 - 1 / q1u r b σ := by linarith
  have hD : 0 < K - K / (1 - 1 / q1u r b σ) := by
    rw [sub_pos, div_lt_iff₀ (by linarith)]; nlinarith
  have hexp : exp ((b * t - 2 * σ * √t) * K / (K - K / (1 - 1 / q1u r b σ))) ≤ 1 := by
    refine exp_le_one_iff.2 (div_nonpos_of_nonpos_of_nonneg (mul_nonpos_of_nonpos_of_nonneg ?_ hK.le) hD.le)
    have : b * t ≤ 0 := mul_nonpos_of_nonpos_of_nonneg hb ht.le
    have : 0 ≤ 2 * σ * √t := by positivity
    linarith
  rw [e]
  have := mul_le_of_le_one_right hD.le hexp
  linarith

/-- **C92, put.** With `b ≤ 0`, `d1` at the strike at most `0.2` and a volatility that is not tiny the search started at
the seed ends, at a positive price not above the strike. -/
theorem C92_search_put (hK : 0 < K) (ht : 0 < t) (hσ : 0 < σ) (hr : 0 < r) (hb : b ≤ 0)
    (hd : (b + σ ^ 2 / 2) * t ≤ 0.2 * (σ * √t)) (hv : 1 + r * t ≤ 3e6 * (σ ^ 2 * t)) :
    ∃ Sk, 0 < Sk ∧ Sk ≤ K ∧ BAW.NewtonPut K t r b σ (BAW.seedPut K t r b σ) Sk := by
  have hbr : b ≤ r := hb.trans hr.le
  have hQ' := baw_Q1_ge ht hσ hr hb hv
  have hQ := (baw_roots (b := b) ht hσ hr).1
  have hst := sqrt_pos.2 ht
  have hs0 := (seedPut_of_root (b := b) hK ht hσ hr.le (q1u_neg (b := b) hσ hr)).1
  have hs1 := seedPut_le (b := b) hK ht hσ hr hb
  generalize BAW.seedPut K t r b σ = s₀ at *
  set M := 1 - 1 / BAW.Q1 t r b σ - 1 / (σ * √t * BAW.Q1 t r b σ) with hM
  have hM0 : 0 < M := by
    have h1 := one_div_neg.2 hQ
    have h2 : 1 / (σ * √t * BAW.Q1 t r b σ) < 0 := one_div_neg.2 (mul_neg_of_pos_of_neg (by positivity) hQ)
    linarith
  let I : ℝ → Prop := fun s => 0 < s ∧ s ≤ K
  have hcond : ∀ s, |K - s - BAW.rhsPut K t r b σ s| / K > 0.000001 ↔ 1e-6 * K < |hPut K t r b σ s| := fun s => by
    rw [gt_iff_lt, lt_div_iff₀ hK]; unfold hPut; norm_num
  have inv : ∀ s, I s → |K - s - BAW.rhsPut K t r b σ s| / K > 0.000001 →
      I ((K - BAW.rhsPut K t r b σ s + BAW.biPut K t r b σ s * s) / (1 + BAW.biPut K t r b σ s)) := by
    rintro s ⟨h1, h2⟩ hc
    exact ⟨baw_stepPut_pos hK ht hσ hr hbr h1, stepPut_le hK ht hσ hr hb h2⟩
  suffices h : ∃ Sk, BAW.NewtonPut K t r b σ s₀ Sk by
    obtain ⟨Sk, hL⟩ := h
    have : I Sk := hL.inv inv ⟨hs0, hs1⟩
    exact ⟨Sk, this.1, this.2, hL⟩
  refine loop_ends (c := fun s => |K - s - BAW.rhsPut K t r b σ s| / K > 0.000001)
    (f := fun s => (K - BAW.rhsPut K t r b σ s + BAW.biPut K t r b σ s * s) / (1 + BAW.biPut K t r b σ s))
    (I := I) (good := fun s => hPut K t r b σ s < 0) (m₁ := fun s => s) (m₂ := fun s => K - s) (B := K)
    (δ := 1e-6 * K / M) (by positivity) inv (fun s hs => ⟨hs.1.le, hs.2⟩) (fun s hs => by linarith [hs.2]) ?_ ?_ s₀ ⟨hs0, hs1⟩
  · rintro s ⟨h1, h2⟩ hc hn
    rw [hcond] at hc ⊢
    rw [stepPut_eq ht hσ hr hbr]
    have hN := baw_biPut_gt (K := K) ht hσ hr hbr s
    have hNM := slopeUsedPut_le (K := K) (s := s) ht hσ hr hbr
    have hup := stepPut_down hK ht hσ hr hb hd hQ' h1 h2 hn
    rw [abs_of_neg hn] at hc
    constructor
    · have : 1e-6 * K / M ≤ -hPut K t r b σ s / (1 + BAW.biPut K t r b σ s) :=
        div_le_div₀ (by linarith) hc.le (by linarith) hNM
      rw [neg_div] at this
      linarith
    · intro hc'
      by_contra hge
      rw [not_lt] at hge
      rw [abs_of_nonneg hge] at hc'
      norm_num at hup hc'
      linarith
  · rintro s ⟨h1, h2⟩ hc hn
    rw [hcond] at hc
    rw [stepPut_eq ht hσ hr hbr]
    rw [not_lt] at hn
    have hN := baw_biPut_gt (K := K) ht hσ hr hbr s
    have hNM := slopeUsedPut_le (K := K) (s := s) ht hσ hr hbr
    rw [abs_of_nonneg hn] at hc
    have : 1e-6 * K / M ≤ hPut K t r b σ s / (1 + BAW.biPut K t r b σ s) :=
      div_le_div₀ (by linarith) hc.le (by linarith) hNM
    linarith

end put

/-! ## The prices -/

/-- **C92, call.** Under the same conditions `call()` returns for every spot, a number within the stated distance of
the quadratic approximation. -/
theorem C92_call {S K t r b σ Q A Sx : ℝ} (hS : 0 < S) (hK : 0 < K) (ht : 0 < t) (hσ : 0 < σ) (hr : 0 < r) (hb0 : 0 ≤ b)
    (hb : b < r) (hv : 1 + r * t ≤ 1e8 * (σ ^ 2 * t)) (hx : IsQuadApprox true K t r b σ Q A Sx) :
    ∃ p Sk, K ≤ Sk ∧ BAWFloat.Call S K t r b σ (.num p) ∧
      |Sk - Sx| ≤ searchErr K t r b Q Sk / ((1 - exp ((b - r) * t)) * (1 - 1 / Q)) ∧
      |p - quadValue true K t r b σ Q A Sx S|
        ≤ (1 + lip t r b σ Q) * |Sk - Sx| + searchErr K t r b Q Sk + eurErr K t r b S + premErr t r b Q Sk := by
  obtain ⟨Sk, hge, hN⟩ := C92_search_call hK ht hσ hr hb0 hb hv
  have hSk : 0 < Sk := hK.trans_le hge
  have hs0 := hK.trans_le (seedCall_ge hK ht hσ hr hb0 hb)
  have hL := newtonCall_lift hK ht hσ hr hb.le hs0 hN
  have hexit := hN.exit
  rw [not_lt, div_le_iff₀ hK] at hexit
  have key := baw_call_accuracy hS hK ht hσ hr hb hSk (by norm_num at hexit ⊢; exact hexit) rfl hx
  refine ⟨_, Sk, hge, ?_, key.1, key.2⟩
  rw [BAWFloat.Call, if_neg (not_le.2 hb), fl_seedCall hK ht hσ hr.le hb]
  refine ⟨_, hL, ?_⟩
  by_cases hlt : Fl.lt (.num S) (.num Sk)
  · exact .inl ⟨hlt, (fl_call_value hS hK ht hσ hr hSk (.inl ⟨hlt, rfl⟩)).symm⟩
  · refine .inr ⟨hlt, ?_⟩
    rw [if_neg fun h => hlt (Fl.lt_num.2 h), Fl.num_sub]

/-- Every run of the put's search over the reals from a positive seed is a run with `nan`s in the number system. -/
theorem newtonPut_lift {K t r b σ s₀ s : ℝ} (hK : 0 < K) (ht : 0 < t) (hσ : 0 < σ) (hr : 0 < r) (hb : b ≤ r)
    (hs : 0 < s₀) (h : BAW.NewtonPut K t r b σ s₀ s) :
    BAWFloat.NewtonPut (.num K) (.num t) (.num r) (.num b) (.num σ) (.num s₀) (.num s) := by
  have hc : ∀ s, 0 < s → (Fl.lt (.num 0.000001) (Fl.abs (.num K - .num s
      - BAWFloat.rhsPut (.num K) (.num t) (.num r) (.num b) (.num σ) (.num s)) / .num K)
      ↔ |K - s - BAW.rhsPut K t r b σ s| / K > 0.000001) := by
    intro s hs
    simp only [fl_rhsPut hK ht hσ hr hs, Fl.num_sub, Fl.num_abs, Fl.num_div _ hK.ne', Fl.lt_num]
  unfold BAW.NewtonPut at h
  induction h with
  | stop h => exact .stop (fun h' => h ((hc _ hs).1 h'))
  | @step s s' h _ ih =>
    refine .step ((hc _ hs).2 h) ?_
    have hbi := baw_biPut_gt (K := K) ht hσ hr hb s
    have e : (.num K - BAWFloat.rhsPut (.num K) (.num t) (.num r) (.num b) (.num σ) (.num s)
        + BAWFloat.biPut (.num K) (.num t) (.num r) (.num b) (.num σ) (.num s) * .num s)
        / (1 + BAWFloat.biPut (.num K) (.num t) (.num r) (.num b) (.num σ) (.num s))
        = Fl.num ((K - BAW.rhsPut K t r b σ s + BAW.biPut K t r b σ s * s) / (1 + BAW.biPut K t r b σ s)) := by
      simp only [fl_rhsPut hK ht hσ hr hs, fl_biPut hK ht hσ hr hs, Fl.one_eq, Fl.num_add, Fl.num_sub, Fl.num_mul]
      rw [Fl.num_div _ (by linarith)]
    have := ih (baw_stepPut_pos hK ht hσ hr hb hs)
    rw [← e] at this
    exact this

/-- **C92, put.** Under the conditions of `C92_search_put`, `put()` returns for every spot, a number within the stated
distance of the quadratic approximation. -/
theorem C92_put {S K t r b σ Q A Sx : ℝ} (hS : 0 < S) (hK : 0 < K) (ht : 0 < t) (hσ : 0 < σ) (hr : 0 < r) (hb : b ≤ 0)
    (hd : (b + σ ^ 2 / 2) * t ≤ 0.2 * (σ * √t)) (hv : 1 + r * t ≤ 3e6 * (σ ^ 2 * t))
    (hx : IsQuadApprox false K t r b σ Q A Sx) :
    ∃ p Sk, 0 < Sk ∧ BAWFloat.Put S K t r b σ (.num p) ∧
      |Sk - Sx| ≤ searchErr K t r b Q Sk / ((1 - exp ((b - r) * t) * Φ (-(BAW.d1 K t b σ (min Sk Sx)))) * (1 - 1 / Q)) ∧
      |p - quadValue false K t r b σ Q A Sx S|
        ≤ (1 + lip t r b σ Q) * |Sk - Sx| + searchErr K t r b Q Sk + eurErr K t r b S + premErr t r b Q Sk := by
  obtain ⟨Sk, hSk, -, hN⟩ := C92_search_put hK ht hσ hr hb hd hv
  have hbr : b ≤ r := hb.trans hr.le
  obtain ⟨h1, h2⟩ := seedPut_of_root (K := K) (t := t) hK ht hσ hr.le (q1u_neg (b := b) hσ hr)
  have hL := newtonPut_lift hK ht hσ hr hbr h1 hN
  have hput : ∃ x, BAWFloat.Put S K t r b σ x := by
    unfold BAWFloat.Put
    by_cases hlt : Fl.lt (.num Sk) (.num S)
    · exact ⟨_, _, by rw [h2]; exact hL, .inl ⟨hlt, rfl⟩⟩
    · exact ⟨_, _, by rw [h2]; exact hL, .inr ⟨hlt, rfl⟩⟩
  obtain ⟨x, hput⟩ := hput
  obtain ⟨p, Sk', rfl, h3, h4, h5⟩ := C91_put_partial hS hK ht hσ hr hbr hput hx
  exact ⟨p, Sk', h3, hput, h4, h5⟩

/-- Non-vacuous: a year's futures option at 20% volatility satisfies all conditions, for call and put. -/
theorem C92_example : (∃ Sk, 100 ≤ Sk ∧ BAW.NewtonCall 100 1 0.08 0 0.2 (BAW.seedCall 100 1 0.08 0 0.2) Sk) ∧
    ∃ Sk, 0 < Sk ∧ Sk ≤ 100 ∧ BAW.NewtonPut 100 1 0.08 0 0.2 (BAW.seedPut 100 1 0.08 0 0.2) Sk :=
  ⟨C92_search_call (by norm_num) (by norm_num) (by norm_num) (by norm_num) (by norm_num) (by norm_num) (by norm_num),
   C92_search_put (by norm_num) (by norm_num) (by norm_num) (by norm_num) (by norm_num) (by norm_num) (by norm_num)⟩

end Verif.Props
