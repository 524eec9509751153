import Verif.Props.BAWPutTerm

/-!
# C92 for calls with a negative cost of carry

Below the critical price the search may overshoot it, because the slope it uses is not the derivative (C78); the step back
is shorter than the step forward.
-/
namespace Verif.Props
open Real Verif.Spec QuadApprox Set

/-- A loop ends if it moves up on the `good` side, down on the other side, and having crossed from `s` it does not come
back to `s` or below. -/
theorem loop_ends_cross_up {c : ℝ → Prop} {f : ℝ → ℝ} {good : ℝ → Prop} {L B δ : ℝ} (hδ : 0 < δ)
    (hI : ∀ s, L ≤ s → s < B → c s → L ≤ f s ∧ f s < B)
    (hup : ∀ s, L ≤ s → s < B → c s → good s → s + δ ≤ f s)
    (hdown : ∀ s, L ≤ s → s < B → c s → ¬ good s → f s ≤ s - δ)
    (hcross : ∀ s x, L ≤ s → x < B → c s → good s → c x → ¬ good x → x ≤ f s → s ≤ x → s + δ ≤ f x)
    (s : ℝ) (hs : L ≤ s) (hsB : s < B) : ∃ s', Py.Loop c f s s' := by
  obtain ⟨s', h⟩ := loop_ends_cross (c := fun y => c (B - y)) (f := fun y => B - f (B - y)) (good := fun y => good (B - y))
    (B := B - L) hδ (fun y h1 h2 h3 => by
      obtain ⟨k1, k2⟩ := hI (B - y) (by linarith) (by linarith) h3
      exact ⟨by linarith, by linarith⟩)
    (fun y h1 h2 h3 h4 => by have := hup (B - y) (by linarith) (by linarith) h3 h4; linarith)
    (fun y h1 h2 h3 h4 => by have := hdown (B - y) (by linarith) (by linarith) h3 h4; linarith)
    (fun y x h1 h2 h3 h4 h5 h6 h7 h8 => by
      have := hcross (B - y) (B - x) (by linarith) (by linarith) h3 h4 h5 h6 (by linarith) (by linarith)
      linarith) (B - s) (by linarith) (by linarith)
  have conj : ∀ y y', Py.Loop (fun y => c (B - y)) (fun y => B - f (B - y)) y y' → Py.Loop c f (B - y) (B - y') := by
    intro y y' h
    induction h with
    | stop h => exact .stop h
    | step h1 _ ih => rw [sub_sub_cancel] at ih; exact .step h1 ih
  have := conj _ _ h
  rw [sub_sub_cancel] at this
  exact ⟨_, this⟩

/-- `CND` minus its continuous version is increasing. -/
theorem cnd_jump_mono {y z : ℝ} (h : y ≤ z) : CND y - CNDError.cndCont y ≤ CND z - CNDError.cndCont z := by
  have h2 := CNDError.tail_zero_lt
  have e0 : CND 0 - CNDError.cndCont 0 = 0 := by rw [CND_zero, CNDError.cndCont]; simp
  rcases lt_trichotomy y 0 with hy | hy | hy <;> rcases lt_trichotomy z 0 with hz | hz | hz
  · rw [CNDError.cndCont_neg hy, CNDError.cndCont_neg hz]; linarith
  · rw [CNDError.cndCont_neg hy, hz, e0]; linarith
  · rw [CNDError.cndCont_neg hy, CNDError.cndCont_pos hz]; linarith
  · linarith
  · rw [hy, hz]
  · rw [hy, e0, CNDError.cndCont_pos hz]; linarith
  · linarith
  · linarith
  · rw [CNDError.cndCont_pos hy, CNDError.cndCont_pos hz]; linarith

section
variable {K t r b σ s x : ℝ}

/-- `hCall` with both jumps of `CND` closed. -/
noncomputable def hCallCC (K t r b σ x : ℝ) : ℝ :=
  x - K - (x * exp ((b - r) * t) * CNDError.cndCont (BAW.d1 K t b σ x)
    - K * exp (-r * t) * CNDError.cndCont (BAW.d1 K t b σ x - σ * √t))
    - (1 - exp ((b - r) * t) * CNDError.cndCont (BAW.d1 K t b σ x)) * x / BAW.Q2 t r b σ

/-- The jump at `d1 = 0` is downwards, the one at `d2 = 0` small. -/
theorem hCall_jump (hK : 0 < K) (ht : 0 < t) (hσ : 0 < σ) (hr : 0 < r) (hb : b ≤ r) (hs : 0 < s) (hsx : s ≤ x) :
    hCall K t r b σ x - hCall K t r b σ s ≤ hCallCC K t r b σ x - hCallCC K t r b σ s
      + 1e-9 * exp ((b - r) * t) * (x - s) + 2e-9 * K := by
  have hQ := baw_Q2_gt ht hσ hr hb
  have j1 := cnd_jump_mono (baw_d1_mono (b := b) hK ht hσ hs hsx)
  have n1 := abs_le.1 (cndCont_near' (BAW.d1 K t b σ x))
  have n3 := abs_le.1 (cndCont_near' (BAW.d1 K t b σ x - σ * √t))
  have n4 := abs_le.1 (cndCont_near' (BAW.d1 K t b σ s - σ * √t))
  rw [hCall_eq, hCall_eq, hCallCC, hCallCC]
  have hR : exp (-r * t) ≤ 1 := exp_le_one_iff.2 (by nlinarith)
  have hR0 := exp_pos (-r * t)
  have hE := exp_pos ((b - r) * t)
  generalize exp ((b - r) * t) = E at *
  generalize exp (-r * t) = R at *
  generalize CND (BAW.d1 K t b σ x) = C at *
  generalize CND (BAW.d1 K t b σ s) = D at *
  generalize CNDError.cndCont (BAW.d1 K t b σ x) = C' at *
  generalize CNDError.cndCont (BAW.d1 K t b σ s) = D' at *
  generalize CND (BAW.d1 K t b σ x - σ * √t) = F at *
  generalize CND (BAW.d1 K t b σ s - σ * √t) = G at *
  generalize CNDError.cndCont (BAW.d1 K t b σ x - σ * √t) = F' at *
  generalize CNDError.cndCont (BAW.d1 K t b σ s - σ * √t) = G' at *
  generalize BAW.Q2 t r b σ = q at *
  have hq0 : 0 < q := by linarith
  have hq1 : 0 < 1 - 1 / q := by have : 1 / q < 1 := by rw [div_lt_one hq0]; exact hQ
                                 linarith
  have hq2 : 1 - 1 / q ≤ 1 := by have : 0 < 1 / q := by positivity
                                 linarith
  have e : x - K - (x * E * C - K * R * F) - (1 - E * C) * x / q - (s - K - (s * E * D - K * R * G) - (1 - E * D) * s / q)
      = x - K - (x * E * C' - K * R * F') - (1 - E * C') * x / q - (s - K - (s * E * D' - K * R * G') - (1 - E * D') * s / q)
        - E * (1 - 1 / q) * (x * (C - C') - s * (D - D')) + K * R * (F - F' - (G - G')) := by ring
  have k1 : -(1e-9) * (x - s) ≤ x * (C - C') - s * (D - D') := by
    have a1 : 0 ≤ s * ((C - C') - (D - D')) := mul_nonneg hs.le (by linarith)
    have a2 : -(1e-9) * (x - s) ≤ (C - C') * (x - s) := mul_le_mul_of_nonneg_right (by linarith [n1.2]) (by linarith)
    linarith
  have k2 : -(1e-9 * E * (x - s)) ≤ E * (1 - 1 / q) * (x * (C - C') - s * (D - D')) := by
    have a1 := mul_le_mul_of_nonneg_left k1 (mul_pos hE hq1).le
    have a2 : E * (1 - 1 / q) * (1e-9 * (x - s)) ≤ E * 1 * (1e-9 * (x - s)) :=
      mul_le_mul_of_nonneg_right (mul_le_mul_of_nonneg_left hq2 hE.le)
        (mul_nonneg (by norm_num) (by linarith))
    linarith
  have k3 : K * R * (F - F' - (G - G')) ≤ 2e-9 * K := by
    have a1 : K * R * (F - F' - (G - G')) ≤ K * R * 2e-9 :=
      mul_le_mul_of_nonneg_left (by norm_num at n3 n4 ⊢; linarith [n3.1, n4.2]) (by positivity)
    have a2 : K * R ≤ K * 1 := mul_le_mul_of_nonneg_left hR hK.le
    norm_num at a1 ⊢
    linarith
  rw [e]
  linarith

/-- The slope of `hCallCC`. -/
noncomputable def slopeCallCC (K t r b σ x : ℝ) : ℝ :=
  (1 - exp ((b - r) * t) * CNDError.cndCont (BAW.d1 K t b σ x)) * (1 - 1 / BAW.Q2 t r b σ)
    + (exp ((b - r) * t) * CNDError.cndDens (BAW.d1 K t b σ x) / BAW.Q2 t r b σ
      - exp ((b - r) * t) * CNDError.cndDens (BAW.d1 K t b σ x)
      + K * exp (-r * t) * CNDError.cndDens (BAW.d1 K t b σ x - σ * √t) / x) / (σ * √t)

theorem hCallCC_deriv (hK : 0 < K) (ht : 0 < t) (hσ : 0 < σ) (hr : 0 < r) (hx : 0 < x) (h1 : BAW.d1 K t b σ x ≠ 0)
    (h2 : BAW.d1 K t b σ x - σ * √t ≠ 0) : HasDerivAt (hCallCC K t r b σ) (slopeCallCC K t r b σ x) x := by
  have hst := sqrt_pos.2 ht
  have hQ := (baw_roots (b := b) ht hσ hr).2.1
  have hd := baw_d1_deriv (t := t) (b := b) (σ := σ) hx hK
  have c1 := (CNDError.hasDerivAt_cndCont h1).comp x hd
  have c2 := (CNDError.hasDerivAt_cndCont h2).comp x (hd.sub_const (σ * √t))
  have i : HasDerivAt (fun x : ℝ => x) 1 x := hasDerivAt_id x
  have h := ((i.sub_const K).sub (((i.mul_const (exp ((b - r) * t))).mul c1).sub (c2.const_mul (K * exp (-r * t))))).sub
    (((((c1.const_mul (exp ((b - r) * t))).const_sub 1).mul i)).div_const (BAW.Q2 t r b σ))
  refine HasDerivAt.congr_deriv h ?_
  unfold slopeCallCC
  simp only [Function.comp]
  generalize CNDError.cndCont (BAW.d1 K t b σ x) = C
  generalize CNDError.cndDens (BAW.d1 K t b σ x) = f
  generalize CNDError.cndDens (BAW.d1 K t b σ x - σ * √t) = g
  generalize exp ((b - r) * t) = E
  generalize exp (-r * t) = R
  generalize BAW.Q2 t r b σ = q at *
  field_simp
  ring

/-- The slope used by the step, `1 - bi`. -/
theorem slopeUsedCall_eq : 1 - BAW.biCall K t r b σ s
    = (1 - exp ((b - r) * t) * CND (BAW.d1 K t b σ s)) * (1 - 1 / BAW.Q2 t r b σ)
      + CND (BAW.d1 K t b σ s) * (exp ((b - r) * t) / (σ * √t * BAW.Q2 t r b σ)) := by
  unfold BAW.biCall
  ring

/-- The exponent of the call within the ranges considered. -/
theorem baw_Q2_range (ht : 0 < t) (hσ : 0 < σ) (hr : 0 < r) (hrt : r * t ≤ 10) (hb : b ≤ 0) (hv1 : 0.0125 ≤ σ * √t)
    (hv2 : σ * √t ≤ 2) (hc : -(2 * (σ * √t)) ≤ b * t) :
    1 / 2 ≤ σ * √t * (BAW.Q2 t r b σ - 1) ∧ σ * √t * BAW.Q2 t r b σ ≤ 9.2 ∧ BAW.Q2 t r b σ * exp (-(b * t)) ≤ 640 := by
  have hq := baw_Q2_gt ht hσ hr (hb.trans hr.le)
  obtain ⟨-, -, h3⟩ := baw_roots (b := b) ht hσ hr
  have e := h3 _ (.inr rfl)
  obtain ⟨g1, g2⟩ := baw_G ht hr
  rw [← e] at g1 g2
  have hv2' : (σ * √t) ^ 2 = σ ^ 2 * t := by rw [mul_pow, sq_sqrt ht.le]
  have hbt : b * t ≤ 0 := mul_nonpos_of_nonpos_of_nonneg hb ht.le
  obtain ⟨y, hy⟩ : ∃ y, BAW.Q2 t r b σ = 1 + y := ⟨BAW.Q2 t r b σ - 1, by ring⟩
  rw [hy] at hq g1 g2 ⊢
  have q : (1 / 2 * σ ^ 2 * (1 + y) * (1 + y - 1) + b * (1 + y)) * t
      = 1 / 2 * (σ * √t) ^ 2 * (y * (1 + y)) + b * t * (1 + y) := by
    rw [hv2']; ring
  rw [q] at g1 g2
  generalize σ * √t = v at *
  generalize b * t = c at *
  have hy0 : 0 < y := by linarith
  have hv0 : 0 < v := by linarith
  have hvy0 : 0 < v * y := by positivity
  have k0 : 1 / 2 * v ^ 2 * (y * (1 + y)) = 1 / 2 * ((v * y) * (v * y + v)) := by ring
  rw [k0] at g1 g2
  have low : 1 / 2 ≤ v * y := by
    by_contra hlt
    rw [not_le] at hlt
    have k1 : c * (1 + y) ≤ 0 := mul_nonpos_of_nonpos_of_nonneg hbt (by linarith)
    have k4 : (v * y) * (v * y + v) ≤ 1 / 2 * (1 / 2 + 2) := mul_le_mul hlt.le (by linarith) (by positivity) (by norm_num)
    linarith
  have up : v * y ≤ 7.2 := by
    by_contra hlt
    rw [not_le] at hlt
    have k1 : -(2 * (v + v * y)) ≤ c * (1 + y) := by
      have := mul_le_mul_of_nonneg_right hc (by linarith : 0 ≤ 1 + y); linarith
    have k2 : 0 ≤ (v * y - 7.2) * (v * y) := mul_nonneg (by linarith) hvy0.le
    have k3 : 0 ≤ (v * y - 7.2) * v := mul_nonneg (by linarith) hv0.le
    linarith
  refine ⟨by linarith [low], by linarith, ?_⟩
  have hcv : exp (-c) ≤ exp (2 * v) := exp_le_exp.2 (by linarith)
  have hyv : 1 + y ≤ 1 + 7.2 / v := by
    have : y ≤ 7.2 / v := by rw [le_div_iff₀ hv0]; linarith
    linarith
  have h1 : exp 1 ≤ 2.7183 := exp_one_lt_d9.le.trans (by norm_num)
  have fin : ∀ a e : ℝ, 0 < a → a ≤ v → exp (2 * v) ≤ e → (1 + 7.2 / a) * e ≤ 640 → (1 + y) * exp (-c) ≤ 640 := by
    intro a e ha hav he hae
    refine le_trans (mul_le_mul (hyv.trans ?_) (hcv.trans he) (exp_pos _).le (by positivity)) hae
    have := div_le_div_of_nonneg_left (by norm_num : (0:ℝ) ≤ 7.2) ha hav
    linarith
  rcases le_total v 0.05 with h | h
  · refine fin 0.0125 (1.1055) (by norm_num) hv1 ?_ (by norm_num)
    refine (exp_le_exp.2 (by linarith : 2 * v ≤ 0.1)).trans ?_
    have := Real.exp_bound_div_one_sub_of_interval (x := 0.1) (by norm_num) (by norm_num)
    have h5 : exp (0.1 : ℝ) ^ 10 = exp 1 := by rw [← exp_nat_mul]; norm_num
    by_contra hlt
    rw [not_le] at hlt
    have := pow_lt_pow_left₀ hlt (by norm_num) (by norm_num : (10:ℕ) ≠ 0)
    rw [h5] at this
    norm_num at this
    linarith
  rcases le_total v 0.5 with h' | h'
  · refine fin 0.05 2.7183 (by norm_num) h ?_ (by norm_num)
    exact (exp_le_exp.2 (by linarith : 2 * v ≤ 1)).trans h1
  rcases le_total v 1.5 with h'' | h''
  · refine fin 0.5 (2.7183 ^ 3) (by norm_num) h' ?_ (by norm_num)
    refine (exp_le_exp.2 (by linarith : 2 * v ≤ 3)).trans ?_
    rw [show (3:ℝ) = (3:ℕ) * 1 by norm_num, exp_nat_mul]
    exact pow_le_pow_left₀ (exp_pos _).le h1 3
  · refine fin 1.5 (2.7183 ^ 4) (by norm_num) h'' ?_ (by norm_num)
    refine (exp_le_exp.2 (by linarith : 2 * v ≤ 4)).trans ?_
    rw [show (4:ℝ) = (4:ℕ) * 1 by norm_num, exp_nat_mul]
    exact pow_le_pow_left₀ (exp_pos _).le h1 4

/-- Bounds of the slope used by the step. -/
theorem slopeUsedCall_range (ht : 0 < t) (hσ : 0 < σ) (hr : 0 < r) (hb : b ≤ r)
    (h1 : 1 / 2 ≤ σ * √t * (BAW.Q2 t r b σ - 1)) :
    exp ((b - r) * t) / (σ * √t * BAW.Q2 t r b σ) / 2 ≤ 1 - BAW.biCall K t r b σ s ∧
    1 - BAW.biCall K t r b σ s ≤ 1 + 1 / (σ * √t * BAW.Q2 t r b σ) := by
  have hQ := baw_Q2_gt ht hσ hr hb
  have hst := sqrt_pos.2 ht
  have hv : 0 < σ * √t := by positivity
  obtain ⟨c0, c1⟩ := CNDError.CND_mem (BAW.d1 K t b σ s)
  have hE := exp_pos ((b - r) * t)
  have hE1 : exp ((b - r) * t) ≤ 1 := exp_le_one_iff.2 (mul_nonpos_of_nonpos_of_nonneg (by linarith) ht.le)
  rw [slopeUsedCall_eq]
  generalize CND (BAW.d1 K t b σ s) = C at *
  generalize exp ((b - r) * t) = E at *
  generalize BAW.Q2 t r b σ = q at *
  generalize σ * √t = v at *
  have hq0 : 0 < q := by linarith
  have hq1 : 1 / q < 1 := by rw [div_lt_one hq0]; exact hQ
  have hq2 : 0 < 1 / q := by positivity
  have hP : 0 < E / (v * q) := by positivity
  have hP1 : E / (v * q) ≤ 1 / (v * q) := div_le_div_of_nonneg_right hE1 (by positivity)
  have hEC : E * C ≤ C := mul_le_of_le_one_left c0.le hE1
  have hEC0 : 0 < E * C := by positivity
  have hP2 : E / (v * q) / 2 ≤ 1 - 1 / q := by
    have : 1 / (v * q) / 2 ≤ 1 - 1 / q := by
      rw [div_div, div_le_iff₀ (by positivity)]
      have : (1 - 1 / q) * (v * q * 2) = 2 * (v * (q - 1)) := by field_simp
      rw [this]; linarith
    linarith
  constructor
  · have a1 : (1 - C) * (1 - 1 / q) ≤ (1 - E * C) * (1 - 1 / q) := mul_le_mul_of_nonneg_right (by linarith) (by linarith)
    have a2 : (1 - C) * (E / (v * q) / 2) ≤ (1 - C) * (1 - 1 / q) := mul_le_mul_of_nonneg_left hP2 (by linarith)
    have a3 : 0 ≤ C * (E / (v * q)) := by positivity
    linarith
  · have a1 : (1 - E * C) * (1 - 1 / q) ≤ 1 * 1 := mul_le_mul (by linarith) (by linarith) (by linarith) (by norm_num)
    have a2 : C * (E / (v * q)) ≤ 1 * (1 / (v * q)) := mul_le_mul c1.le hP1 hP.le (by norm_num)
    linarith

/-- No step goes below a twelfth of the strike. -/
theorem stepCall_low (hK : 0 < K) (ht : 0 < t) (hσ : 0 < σ) (hr : 0 < r) (hb : b ≤ r) (hs : 0 < s)
    (h1 : 1 / 2 ≤ σ * √t * (BAW.Q2 t r b σ - 1)) (h2 : σ * √t * BAW.Q2 t r b σ ≤ 9.2) :
    K / 12 ≤ (K + BAW.rhsCall K t r b σ s - BAW.biCall K t r b σ s * s) / (1 - BAW.biCall K t r b σ s) := by
  have hQ := baw_Q2_gt ht hσ hr hb
  have hst := sqrt_pos.2 ht
  have hv : 0 < σ * √t := by positivity
  obtain ⟨-, hN⟩ := slopeUsedCall_range (K := K) (s := s) ht hσ hr hb h1
  have hN0 := baw_biCall_lt (K := K) ht hσ hr hb s
  have e : BAW.rhsCall K t r b σ s = s - K - hCall K t r b σ s := by unfold hCall; ring
  rw [le_div_iff₀ (by linarith), e, hCall_eq]
  have hC := CNDError.CND_strictMono.monotone (show BAW.d1 K t b σ s - σ * √t ≤ BAW.d1 K t b σ s by linarith)
  obtain ⟨c0, c1⟩ := CNDError.CND_mem (BAW.d1 K t b σ s)
  obtain ⟨c2, c3⟩ := CNDError.CND_mem (BAW.d1 K t b σ s - σ * √t)
  have hR : exp (-r * t) ≤ 1 := exp_le_one_iff.2 (by nlinarith)
  have hR0 := exp_pos (-r * t)
  have hE := exp_pos ((b - r) * t)
  have hlink : 1 / 2 < CND (BAW.d1 K t b σ s - σ * √t) → K * exp (-r * t) ≤ s * exp ((b - r) * t) := by
    intro h
    rw [← CND_zero] at h
    have h := CNDError.CND_strictMono.lt_iff_lt.1 h
    have hd : BAW.d1 K t b σ s * (σ * √t) = log (s / K) + (b + σ ^ 2 / 2) * t := by
      unfold BAW.d1; rw [div_mul_cancel₀ _ hv.ne']
    have h5 := mul_pos h hv
    have hvv : σ * √t * (σ * √t) = σ ^ 2 * t := by rw [← sq, mul_pow, sq_sqrt ht.le]
    have h6 : -(b * t) ≤ log (s / K) := by
      rw [sub_mul, hd, hvv] at h5
      have : 0 < σ ^ 2 * t := by positivity
      linarith
    have h7 : exp (-(b * t)) ≤ s / K := by
      rw [← exp_log (div_pos hs hK)]; exact exp_le_exp.2 h6
    rw [le_div_iff₀ hK] at h7
    have h8 : exp (-r * t) = exp (-(b * t)) * exp ((b - r) * t) := by rw [← exp_add]; ring_nf
    rw [h8]
    have := mul_le_mul_of_nonneg_right h7 hE.le
    linarith
  have e2 : K + (s - K - (s - K - (s * exp ((b - r) * t) * CND (BAW.d1 K t b σ s)
      - K * exp (-r * t) * CND (BAW.d1 K t b σ s - σ * √t))
      - (1 - exp ((b - r) * t) * CND (BAW.d1 K t b σ s)) * s / BAW.Q2 t r b σ)) - BAW.biCall K t r b σ s * s
      = K * (1 - exp (-r * t) * CND (BAW.d1 K t b σ s - σ * √t))
        + s * exp ((b - r) * t) * CND (BAW.d1 K t b σ s) * (1 / (σ * √t * BAW.Q2 t r b σ)) := by
    unfold BAW.biCall; ring
  rw [e2]
  generalize CND (BAW.d1 K t b σ s) = C at *
  generalize CND (BAW.d1 K t b σ s - σ * √t) = D at *
  generalize exp ((b - r) * t) = E at *
  generalize exp (-r * t) = R at *
  have hw1 : 1 / 2 ≤ σ * √t * BAW.Q2 t r b σ := by linarith
  generalize σ * √t * BAW.Q2 t r b σ = w at *
  have hw0 : 0 < w := by linarith
  have hi : 1 / w ≤ 2 := by rw [div_le_iff₀ hw0]; linarith
  have hi2 : 1 / 9.2 ≤ 1 / w := one_div_le_one_div_of_le hw0 h2
  have hup : K / 12 * (1 - BAW.biCall K t r b σ s) ≤ K / 12 * (1 + 1 / w) := mul_le_mul_of_nonneg_left hN (by positivity)
  have hRD : R * D ≤ D := mul_le_of_le_one_left c2.le hR
  generalize 1 / w = i at *
  have hi0 : 0 < i := by norm_num at hi2; linarith
  rcases le_or_gt D (1 / 2) with h | h
  · have a1 : K * (1 / 2) ≤ K * (1 - R * D) := mul_le_mul_of_nonneg_left (by linarith) hK.le
    have a2 : 0 ≤ s * E * C * i := by positivity
    have a3 : K / 12 * (1 + i) ≤ K / 12 * 3 := mul_le_mul_of_nonneg_left (by linarith) (by positivity)
    linarith
  · have a1 := hlink h
    have a2 : K * R * D ≤ s * E * C := mul_le_mul a1 hC c2.le (by positivity)
    have a3 : K * R * D * i ≤ s * E * C * i := mul_le_mul_of_nonneg_right a2 hi0.le
    have hZ : 0 ≤ K * (R * D) := by positivity
    have hZ1 : K * (R * D) ≤ K * 1 := mul_le_mul_of_nonneg_left (by linarith) hK.le
    have a4 : K / 12 * (1 + i) ≤ K * (1 - R * D) + K * (R * D) * i := by
      rcases le_total 1 i with h5 | h5
      · have := mul_le_mul_of_nonneg_left h5 hZ
        nlinarith
      · have : (K - K * (R * D)) * i ≤ (K - K * (R * D)) * 1 := mul_le_mul_of_nonneg_left h5 (by linarith)
        have b1 : K * (1 / 9.2) ≤ K * i := mul_le_mul_of_nonneg_left hi2 hK.le
        have b2 : K / 12 * (1 + i) = K / 12 + K * i / 12 := by ring
        norm_num at b1
        linarith
    linarith

/-- Ahead of `s` the slope is at most the one used in the step from `s` plus 0.43 of its smallest part. -/
theorem slopeCallCC_le (hK : 0 < K) (ht : 0 < t) (hσ : 0 < σ) (hr : 0 < r) (hb : b ≤ r) (hs : K / 12 ≤ s) (hsx : s ≤ x)
    (h2 : σ * √t * BAW.Q2 t r b σ ≤ 9.2) (h3 : BAW.Q2 t r b σ * exp (-(b * t)) ≤ 640) (hb0 : b ≤ 0) :
    slopeCallCC K t r b σ x + 1e-9 * exp ((b - r) * t)
      ≤ 1 - BAW.biCall K t r b σ s + 0.43 * (exp ((b - r) * t) / (σ * √t * BAW.Q2 t r b σ)) := by
  have hst := sqrt_pos.2 ht
  have hv : 0 < σ * √t := by positivity
  have hQ := baw_Q2_gt ht hσ hr hb
  have hs0 : 0 < s := by linarith [div_pos hK (by norm_num : (0:ℝ) < 12)]
  have hx : 0 < x := by linarith
  have hC := CNDError.CND_strictMono.monotone (baw_d1_mono (b := b) hK ht hσ hs0 hsx)
  have hCc := abs_le.1 (cndCont_near' (BAW.d1 K t b σ x))
  have hCs := (CNDError.CND_mem (BAW.d1 K t b σ s)).1
  have e1 := (abs_le.1 (CNDError.cndDens_error (BAW.d1 K t b σ x))).2
  have e2 := CNDError.le_cndDens (BAW.d1 K t b σ x)
  have e3 := (abs_le.1 (CNDError.cndDens_error (BAW.d1 K t b σ x - σ * √t))).2
  have hid := baw_density (r := r) (b := b) hx hK ht hσ
  have hφ := CNDError.φ_le (BAW.d1 K t b σ x)
  have hφ0 := φ_pos (BAW.d1 K t b σ x)
  have hR := exp_pos (-r * t)
  have hE := exp_pos ((b - r) * t)
  have hRE : exp (-r * t) = exp (-(b * t)) * exp ((b - r) * t) := by rw [← exp_add]; ring_nf
  have hF1 : 1 ≤ exp (-(b * t)) := one_le_exp (by have := mul_nonpos_of_nonpos_of_nonneg hb0 ht.le; linarith)
  rw [slopeUsedCall_eq]
  unfold slopeCallCC
  generalize CND (BAW.d1 K t b σ x) = C at *
  generalize CND (BAW.d1 K t b σ s) = C' at *
  generalize CNDError.cndCont (BAW.d1 K t b σ x) = G at *
  generalize CNDError.cndDens (BAW.d1 K t b σ x) = f at *
  generalize CNDError.cndDens (BAW.d1 K t b σ x - σ * √t) = g at *
  generalize φ (BAW.d1 K t b σ x) = p at *
  generalize φ (BAW.d1 K t b σ x - σ * √t) = p' at *
  generalize exp ((b - r) * t) = E at *
  generalize exp (-(b * t)) = F at *
  generalize exp (-r * t) = R at *
  generalize BAW.Q2 t r b σ = q at *
  generalize σ * √t = v at *
  have hq0 : 0 < q := by linarith
  have hq1 : 1 / q < 1 := by rw [div_lt_one hq0]; exact hQ
  have hq2 : 0 < 1 / q := by positivity
  have hP : 0 < E / (v * q) := by positivity
  have m1 : (1 - E * G) * (1 - 1 / q) ≤ (1 - E * C') * (1 - 1 / q) + 1e-9 * E := by
    have a1 : E * (C' - 1e-9) ≤ E * G := mul_le_mul_of_nonneg_left (by linarith [hCc.1]) hE.le
    have a2 : (1 - E * G) * (1 - 1 / q) ≤ (1 - E * C' + 1e-9 * E) * (1 - 1 / q) :=
      mul_le_mul_of_nonneg_right (by linarith) (by linarith)
    have a3 : 1e-9 * E * (1 - 1 / q) ≤ 1e-9 * E * 1 := mul_le_mul_of_nonneg_left (by linarith) (by positivity)
    linarith
  have m2 : 2e-9 * E ≤ 1e-7 * (E / (v * q)) := by
    have : 2e-9 * E = 2e-9 * (v * q) * (E / (v * q)) := by field_simp
    rw [this]
    refine mul_le_mul_of_nonneg_right ?_ hP.le
    norm_num at h2 ⊢
    linarith
  have m3 : K * R * g / x ≤ E * p + 3.12e-5 * (E * F) := by
    have a1 : K * R * g / x ≤ K * R * (p' + 2.6e-6) / x :=
      div_le_div_of_nonneg_right (mul_le_mul_of_nonneg_left (by linarith) (by positivity)) hx.le
    have a2 : K * R * (p' + 2.6e-6) / x = E * p + 2.6e-6 * R * (K / x) := by
      rw [mul_add, ← hid]; field_simp
    have a3 : K / x ≤ 12 := by rw [div_le_iff₀ hx]; linarith
    have a4 : 2.6e-6 * R * (K / x) ≤ 2.6e-6 * R * 12 := mul_le_mul_of_nonneg_left a3 (by positivity)
    rw [hRE] at a4 a1 a2
    rw [hRE]
    norm_num at a4 a1 a2 ⊢
    linarith
  have m4 : E * f / q - E * f + K * R * g / x ≤ 0.4295 * (E / q) := by
    have a1 : E * f / q ≤ E * (0.39896) / q :=
      div_le_div_of_nonneg_right (mul_le_mul_of_nonneg_left (by norm_num at *; linarith) hE.le) hq0.le
    have a2 : E * ((1 - 1.4e-5) * p) ≤ E * f := mul_le_mul_of_nonneg_left e2 hE.le
    have a3 : E * p ≤ E * 0.4 := mul_le_mul_of_nonneg_left (by linarith) hE.le
    have a5 : E * 1 ≤ E * F := mul_le_mul_of_nonneg_left hF1 hE.le
    have a6 : 3.7e-5 * (E * F) ≤ 0.02368 * (E / q) := by
      have : 3.7e-5 * (E * F) = 3.7e-5 * (q * F) * (E / q) := by field_simp
      rw [this]
      refine mul_le_mul_of_nonneg_right ?_ (by positivity)
      norm_num at h3 ⊢
      linarith
    have a7 : 0 < E / q := by positivity
    have a8 : E * 0.39896 / q = 0.39896 * (E / q) := by ring
    rw [a8] at a1
    norm_num at a1 a2 a3 a6 m3 ⊢
    linarith
  have m5 := div_le_div_of_nonneg_right m4 hv.le
  have m6 : 0.4295 * (E / q) / v = 0.4295 * (E / (v * q)) := by field_simp
  have m7 : 0 ≤ C' * (E / (v * q)) := by positivity
  rw [m6] at m5
  norm_num at m1 m2 m5 ⊢
  linarith

/-- Growth of the target ahead of `s`. -/
theorem hCall_growth (hK : 0 < K) (ht : 0 < t) (hσ : 0 < σ) (hr : 0 < r) (hs : K / 12 ≤ s) (hsx : s ≤ x)
    (h2 : σ * √t * BAW.Q2 t r b σ ≤ 9.2) (h3 : BAW.Q2 t r b σ * exp (-(b * t)) ≤ 640) (hb0 : b ≤ 0) :
    hCall K t r b σ x ≤ hCall K t r b σ s
      + (1 - BAW.biCall K t r b σ s + 0.43 * (exp ((b - r) * t) / (σ * √t * BAW.Q2 t r b σ))) * (x - s) + 2e-9 * K := by
  have hb : b ≤ r := hb0.trans hr.le
  have hs0 : 0 < s := by linarith [div_pos hK (by norm_num : (0:ℝ) < 12)]
  have hg := growth_two (f := hCallCC K t r b σ) (f' := slopeCallCC K t r b σ)
    (N := 1 - BAW.biCall K t r b σ s + 0.43 * (exp ((b - r) * t) / (σ * √t * BAW.Q2 t r b σ)) - 1e-9 * exp ((b - r) * t))
    (K * exp (0 * (σ * √t) - (b + σ ^ 2 / 2) * t))
    (K * exp (σ * √t * (σ * √t) - (b + σ ^ 2 / 2) * t)) hsx ?_ ?_ ?_
  · have := hCall_jump hK ht hσ hr hb hs0 hsx
    linarith
  · intro z hz
    have hx0 : 0 < z := by linarith [hz.1]
    have hdc := (baw_d1_deriv (t := t) (b := b) (σ := σ) hx0 hK).continuousAt
    have hC : ContinuousAt (fun x => CNDError.cndCont (BAW.d1 K t b σ x)) z :=
      (CNDError.continuous_cndCont.continuousAt.comp hdc)
    have hC2 : ContinuousAt (fun x => CNDError.cndCont (BAW.d1 K t b σ x - σ * √t)) z :=
      (CNDError.continuous_cndCont.continuousAt.comp (hdc.sub continuousAt_const))
    refine ContinuousAt.continuousWithinAt ?_
    unfold hCallCC
    exact ((continuousAt_id.sub continuousAt_const).sub (((continuousAt_id.mul continuousAt_const).mul hC).sub
      (continuousAt_const.mul hC2))).sub
      (((continuousAt_const.sub (continuousAt_const.mul hC)).mul continuousAt_id).div_const _)
  · intro z hz hz1 hz2
    have hx0 : 0 < z := by linarith [hz.1]
    refine hCallCC_deriv hK ht hσ hr hx0 (fun h => hz1 ?_) fun h => hz2 ?_
    · exact baw_d1_eq hK ht hσ hx0 h
    · exact baw_d1_eq hK ht hσ hx0 (by linarith)
  · intro z hz _ _
    have := slopeCallCC_le hK ht hσ hr hb hs hz.1.le h2 h3 hb0
    linarith

/-- The arithmetic of a crossing: from `s` up to `x` or further, then down from `x`. -/
private theorem cross_arith_up {K s x P d d' Hs Hx M ε : ℝ} (hK : 0 < K) (hP : 0 < P) (hd : P / 2 ≤ d) (hd' : P / 2 ≤ d')
    (hM : d + P ≤ M) (hsx : s ≤ x) (hfx : x ≤ s - Hs / d) (hc : 1e-6 * K < -Hs) (hcx : 1e-6 * K < Hx)
    (hg : Hx ≤ Hs + (d + 0.43 * P) * (x - s) + ε) (hε : ε ≤ 1e-7 * K) : s + 4e-8 * K / M ≤ x - Hx / d' := by
  have hd0 : 0 < d := by linarith
  have hd'0 : 0 < d' := by linarith
  have hM0 : 0 < M := by linarith
  have key : 0.9 * Hx ≤ (d + 0.43 * P) * (x - s) + Hs := by
    norm_num at hg hcx hε ⊢
    linarith
  have hax : d * (x - s) ≤ -Hs := by
    have h1 := mul_le_mul_of_nonneg_left (by linarith : x - s ≤ -(Hs / d)) hd0.le
    have : d * (Hs / d) = Hs := mul_div_cancel₀ _ hd0.ne'
    linarith
  have h3 : 0 ≤ P * (x - s) := mul_nonneg hP.le (by linarith)
  have hstepx : Hx / d' ≤ 0.956 * (x - s) := by
    rw [div_le_iff₀ hd'0]
    have h1 : 0.9 * Hx ≤ 0.43 * P * (x - s) := by linarith
    have h2 : P / 2 * (x - s) ≤ d' * (x - s) := mul_le_mul_of_nonneg_right hd' (by linarith)
    linarith
  have hdist : 1e-6 * K / M ≤ x - s := by
    rw [div_le_iff₀ hM0]
    have h1 : (d + 0.43 * P) * (x - s) ≤ M * (x - s) := mul_le_mul_of_nonneg_right (by linarith) (by linarith)
    linarith
  have : 4e-8 * K / M = 0.04 * (1e-6 * K / M) := by ring
  rw [this]
  linarith

/-- Where exercising is worth nearly what the right-hand side is, the price is nearly above the strike. -/
theorem hCall_le (hK : 0 < K) (ht : 0 < t) (hσ : 0 < σ) (hr : 0 < r) (hb : b ≤ r) (hx : 0 < x) :
    hCall K t r b σ x ≤ x - K + 1e-7 * (K + x) := by
  have hQ := baw_Q2_gt ht hσ hr hb
  obtain ⟨u, hu, he⟩ := C02_price_accuracy ⟨hx, hK, ht, hσ⟩ r b true
  have hu' : u = gbsCallNum x K t r b σ := by
    have : (GBS.new x K t r b (some σ)).price true = .ok (gbsCallNum x K t r b σ) := rfl
    rw [this] at hu; injection hu with hu; exact hu.symm
  have h0 := bsPrice_nonneg true x K t r b σ
  have he' := (abs_le.1 he).1
  obtain ⟨c0, c1⟩ := CNDError.CND_mem (BAW.d1 K t b σ x)
  have hE := exp_pos ((b - r) * t)
  have hE1 : exp ((b - r) * t) ≤ 1 := exp_le_one_iff.2 (mul_nonpos_of_nonpos_of_nonneg (by linarith) ht.le)
  have hR : exp (-r * t) ≤ 1 := exp_le_one_iff.2 (by nlinarith)
  have h1 : 0 ≤ (1 - exp ((b - r) * t) * CND (BAW.d1 K t b σ x)) * x / BAW.Q2 t r b σ := by
    refine div_nonneg (mul_nonneg ?_ hx.le) (by linarith)
    have := mul_le_one₀ hE1 c0.le c1.le
    linarith
  have h2 : x * exp ((b - r) * t) ≤ x * 1 := mul_le_mul_of_nonneg_left hE1 hx.le
  have h3 : K * exp (-r * t) ≤ K * 1 := mul_le_mul_of_nonneg_left hR hK.le
  unfold hCall BAW.rhsCall
  rw [← hu']
  generalize exp ((b - r) * t) = E at *
  generalize exp (-r * t) = R at *
  norm_num at he' ⊢
  linarith

theorem seedCall_ge' (hK : 0 < K) (hσ : 0 < σ) (hr : 0 < r) (hb : b < r) (hc : -(2 * (σ * √t)) ≤ b * t) :
    K ≤ BAW.seedCall K t r b σ := by
  have hq := q2u_gt hσ hr.le hb
  rw [seedCall_eq hK hσ hr.le hb, le_div_iff₀ (by linarith)]
  refine mul_le_mul_of_nonneg_left ?_ hK.le
  have : exp (-(b * t + 2 * σ * √t) * (q2u r b σ - 1)) ≤ 1 := by
    refine exp_le_one_iff.2 (mul_nonpos_of_nonpos_of_nonneg ?_ (by linarith))
    linarith
  linarith

/-- **C92, call.** With `b ≤ 0`, volatility times root of maturity between 0.0125 and 2, `r t ≤ 10` and the carry within
`-2 σ√t ≤ b t` the search started at the seed ends, at a price not noticeably below the strike. -/
theorem C92_search_call_carry (hK : 0 < K) (ht : 0 < t) (hσ : 0 < σ) (hr : 0 < r) (hb0 : b ≤ 0) (hrt : r * t ≤ 10)
    (hv1 : 0.0125 ≤ σ * √t) (hv2 : σ * √t ≤ 2) (hc : -(2 * (σ * √t)) ≤ b * t) :
    ∃ Sk, 0.99 * K ≤ Sk ∧ BAW.NewtonCall K t r b σ (BAW.seedCall K t r b σ) Sk := by
  obtain ⟨q1, q2, q3⟩ := baw_Q2_range ht hσ hr hrt hb0 hv1 hv2 hc
  have hb : b < r := by linarith
  have hQ := baw_Q2_gt ht hσ hr hb.le
  have hv : 0 < σ * √t := by linarith
  have hs0 := seedCall_ge' hK hσ hr hb hc
  generalize BAW.seedCall K t r b σ = s₀ at *
  have hE1 : exp ((b - r) * t) < 1 := exp_lt_one_iff.2 (mul_neg_of_neg_of_pos (by linarith) ht)
  have hq1 : 1 / BAW.Q2 t r b σ < 1 := by rw [div_lt_one (by linarith)]; exact hQ
  have hm : 0 < (1 - exp ((b - r) * t)) * (1 - 1 / BAW.Q2 t r b σ) := mul_pos (by linarith) (by linarith)
  obtain ⟨m, hmd⟩ : ∃ m, (1 - exp ((b - r) * t)) * (1 - 1 / BAW.Q2 t r b σ) = m := ⟨_, rfl⟩
  have low := fun x => hCall_lower (x := x) hK ht hσ hr hb.le
  rw [hmd] at hm low
  have hw0 : 0 < σ * √t * BAW.Q2 t r b σ := mul_pos hv (by linarith)
  set P := exp ((b - r) * t) / (σ * √t * BAW.Q2 t r b σ) with hPd
  have hP : 0 < P := div_pos (exp_pos _) hw0
  set M := 1 + 1 / (σ * √t * BAW.Q2 t r b σ) + P with hM
  have hM0 : 0 < M := by positivity
  have hDlo : ∀ s, P / 2 ≤ 1 - BAW.biCall K t r b σ s := fun s => (slopeUsedCall_range ht hσ hr hb.le q1).1
  have hDup : ∀ s, 1 - BAW.biCall K t r b σ s ≤ 1 + 1 / (σ * √t * BAW.Q2 t r b σ) :=
    fun s => (slopeUsedCall_range ht hσ hr hb.le q1).2
  have hstep : ∀ s, (K + BAW.rhsCall K t r b σ s - BAW.biCall K t r b σ s * s) / (1 - BAW.biCall K t r b σ s)
      = s - hCall K t r b σ s / (1 - BAW.biCall K t r b σ s) := fun s => stepCall_eq ht hσ hr hb.le
  have hcond : ∀ s, |s - K - BAW.rhsCall K t r b σ s| / K > 0.000001 ↔ 1e-6 * K < |hCall K t r b σ s| := fun s => by
    rw [gt_iff_lt, lt_div_iff₀ hK]; unfold hCall; norm_num
  have hK12 : 0 < K / 12 := by positivity
  suffices h : ∃ Sk, BAW.NewtonCall K t r b σ s₀ Sk by
    obtain ⟨Sk, hL⟩ := h
    have hpos : 0 < Sk := hL.inv (P := fun s => 0 < s) (fun s hs _ => baw_stepCall_pos hK ht hσ hr hb.le hs) (by linarith)
    refine ⟨Sk, ?_, hL⟩
    have := hL.exit
    rw [hcond, not_lt] at this
    have h1 := (abs_le.1 this).1
    have h2 := hCall_le hK ht hσ hr hb.le hpos
    norm_num at h1 h2 ⊢
    linarith
  have hδ : 0 < 4e-8 * K / M := by positivity
  refine loop_ends_cross_up (c := fun s => |s - K - BAW.rhsCall K t r b σ s| / K > 0.000001)
    (f := fun s => (K + BAW.rhsCall K t r b σ s - BAW.biCall K t r b σ s * s) / (1 - BAW.biCall K t r b σ s))
    (good := fun s => hCall K t r b σ s < 0) (L := K / 12) (B := max (s₀ + 1) (2 * K / m)) hδ ?_ ?_ ?_ ?_ s₀
    (by linarith) (lt_of_lt_of_le (by linarith) (le_max_left _ _))
  · intro s hs hsB hc
    have hlow := stepCall_low hK ht hσ hr hb.le (hK12.trans_le hs) q1 q2
    refine ⟨hlow, ?_⟩
    simp only [hstep] at hlow ⊢
    have hD := hDlo s
    have hD0 : 0 < 1 - BAW.biCall K t r b σ s := by linarith
    rcases lt_or_ge (hCall K t r b σ s) 0 with hn | hn
    · refine lt_of_lt_of_le ?_ (le_max_right _ _)
      have hlt : s ≤ s - hCall K t r b σ s / (1 - BAW.biCall K t r b σ s) := by
        have := div_neg_of_neg_of_pos hn hD0; linarith
      have hg := hCall_growth hK ht hσ hr hs hlt q2 q3 hb0
      have hl := low _ (hK12.trans_le hlow)
      have hl2 := low _ (hK12.trans_le hs)
      rw [← hPd] at hg
      set d := 1 - BAW.biCall K t r b σ s with hd
      have k1 : (d + 0.43 * P) * (s - hCall K t r b σ s / d - s) ≤ 1.86 * -hCall K t r b σ s := by
        have a1 : (d + 0.43 * P) * (s - hCall K t r b σ s / d - s) = (d + 0.43 * P) / d * -hCall K t r b σ s := by
          field_simp; ring
        rw [a1]
        refine mul_le_mul_of_nonneg_right ?_ (by linarith)
        rw [div_le_iff₀ hD0]
        linarith
      rw [lt_div_iff₀ hm]
      have : 0 < m * s := mul_pos hm (hK12.trans_le hs)
      norm_num at hg k1
      linarith
    · have := div_nonneg hn hD0.le
      linarith
  · intro s hs hsB hc hn
    rw [hcond] at hc
    simp only [hstep]
    have hD := hDlo s
    have hD2 := hDup s
    rw [abs_of_neg hn] at hc
    have : 4e-8 * K / M ≤ -hCall K t r b σ s / (1 - BAW.biCall K t r b σ s) :=
      div_le_div₀ (by linarith) (by linarith) (by linarith) (by linarith)
    rw [neg_div] at this
    linarith
  · intro s hs hsB hc hn
    rw [hcond] at hc
    simp only [hstep]
    have hD := hDlo s
    have hD2 := hDup s
    simp only [not_lt] at hn
    rw [abs_of_nonneg hn] at hc
    have : 4e-8 * K / M ≤ hCall K t r b σ s / (1 - BAW.biCall K t r b σ s) :=
      div_le_div₀ (by linarith) (by linarith) (by linarith) (by linarith)
    linarith
  · intro s x hs hxB hc hn hcx hnx hfx hsx
    rw [hcond] at hc hcx
    simp only [hstep] at hfx ⊢
    simp only [not_lt] at hn hnx
    rw [abs_of_neg hn] at hc
    rw [abs_of_nonneg hnx] at hcx
    have hD2 := hDup s
    exact cross_arith_up hK hP (hDlo s) (hDlo x) (by linarith) hsx hfx hc hcx
      (hCall_growth hK ht hσ hr hs hsx q2 q3 hb0) (by linarith)

end

/-- **C92, call.** Under the conditions of `C92_search_call_carry`, `call()` returns for every spot, a number within the
stated distance of the quadratic approximation. -/
theorem C92_call_carry {S K t r b σ Q A Sx : ℝ} (hS : 0 < S) (hK : 0 < K) (ht : 0 < t) (hσ : 0 < σ) (hr : 0 < r) (hb0 : b ≤ 0)
    (hrt : r * t ≤ 10) (hv1 : 0.0125 ≤ σ * √t) (hv2 : σ * √t ≤ 2) (hc : -(2 * (σ * √t)) ≤ b * t)
    (hx : IsQuadApprox true K t r b σ Q A Sx) :
    ∃ p Sk, 0.99 * K ≤ Sk ∧ BAWFloat.Call S K t r b σ (.num p) ∧
      |Sk - Sx| ≤ searchErr K t r b Q Sk / ((1 - exp ((b - r) * t)) * (1 - 1 / Q)) ∧
      |p - quadValue true K t r b σ Q A Sx S|
        ≤ (1 + lip t r b σ Q) * |Sk - Sx| + searchErr K t r b Q Sk + eurErr K t r b S + premErr t r b Q Sk := by
  obtain ⟨Sk, hge, hN⟩ := C92_search_call_carry hK ht hσ hr hb0 hrt hv1 hv2 hc
  have hb : b < r := by linarith
  have hSk : 0 < Sk := by linarith
  have hs0 := hK.trans_le (seedCall_ge' hK hσ hr hb hc)
  have hL := newtonCall_lift hK ht hσ hr hb.le hs0 hN
  have hexit := hN.exit
  rw [not_lt, div_le_iff₀ hK] at hexit
  have key := baw_call_accuracy hS hK ht hσ hr hb hSk (by norm_num at hexit ⊢; exact hexit) rfl hx
  refine ⟨_, Sk, hge, ?_, key.1, key.2⟩
  rw [BAWFloat.Call, if_neg (not_le.2 hb), fl_seedCall hK ht hσ hr.le hb]
  refine ⟨_, hL, ?_⟩
  by_cases hlt : Fl.lt (.num S) (.num Sk)
  · exact .inl ⟨hlt, (fl_call_value hS hK ht hσ hr hSk (.inl ⟨hlt, rfl⟩)).symm⟩
  · refine .inr ⟨hlt, ?_⟩
    rw [if_neg fun h => hlt (Fl.lt_num.2 h), Fl.num_sub]

/-- The textbook case of a currency or commodity option with a yield above the rate. -/
theorem C92_call_carry_example :
    ∃ Sk, 0.99 * 100 ≤ Sk ∧ BAW.NewtonCall 100 1 0.08 (-0.04) 0.2 (BAW.seedCall 100 1 0.08 (-0.04) 0.2) Sk :=
  C92_search_call_carry (by norm_num) (by norm_num) (by norm_num) (by norm_num) (by norm_num) (by norm_num) (by norm_num)
    (by norm_num) (by norm_num)

end Verif.Props
