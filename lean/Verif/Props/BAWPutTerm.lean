import Verif.Props.BAWTerm
import Verif.Props.ImpliedVolAccuracy

/-!
# C92 for puts with a positive cost of carry

The slope used by the search for the critical price of the put is not the derivative (C78), and above the critical
price the search may overshoot it; below, it may jump back. The two errors together are still a contraction.
-/
namespace Verif.Props
open Real Verif.Spec QuadApprox Set

/-- A loop ends if it moves down on the `good` side, up on the other side, and having crossed from `s` it does not come
back to `s` or above. -/
theorem loop_ends_cross {c : ℝ → Prop} {f : ℝ → ℝ} {good : ℝ → Prop} {B δ : ℝ} (hδ : 0 < δ)
    (hI : ∀ s, 0 < s → s ≤ B → c s → 0 < f s ∧ f s ≤ B)
    (hdown : ∀ s, 0 < s → s ≤ B → c s → good s → f s ≤ s - δ)
    (hup : ∀ s, 0 < s → s ≤ B → c s → ¬ good s → s + δ ≤ f s)
    (hcross : ∀ s x, 0 < x → s ≤ B → c s → good s → c x → ¬ good x → f s ≤ x → x ≤ s → f x ≤ s - δ)
    (s : ℝ) (hs : 0 < s) (hsB : s ≤ B) : ∃ s', Py.Loop c f s s' := by
  have fwd : ∀ x, c x → (∃ s', Py.Loop c f (f x) s') → ∃ s', Py.Loop c f x s' := by
    rintro x hx ⟨s', h⟩; exact ⟨s', .step hx h⟩
  have A : ∀ n : ℕ, ∀ s, 0 < s → s ≤ B → good s → s < n * δ → ∃ s', Py.Loop c f s s' := by
    intro n
    induction n with
    | zero => intro s hs _ _ h; simp only [Nat.cast_zero, zero_mul] at h; linarith
    | succ n ih =>
      intro s hs hB hg hn
      push_cast at hn
      by_cases hc : c s
      swap
      · exact ⟨s, .stop hc⟩
      refine fwd s hc ?_
      obtain ⟨h1, h2⟩ := hI s hs hB hc
      have h3 := hdown s hs hB hc hg
      by_cases hg' : good (f s)
      · exact ih _ h1 h2 hg' (by linarith)
      have chain : ∀ m : ℕ, ∀ x, 0 < x → ¬ good x → f s ≤ x → x ≤ s → s - x < m * δ → ∃ s', Py.Loop c f x s' := by
        intro m
        induction m with
        | zero => intro x _ _ _ hx h; simp only [Nat.cast_zero, zero_mul] at h; linarith
        | succ m ihm =>
          intro x hx hgx hfx hxs hm
          push_cast at hm
          by_cases hcx : c x
          swap
          · exact ⟨x, .stop hcx⟩
          refine fwd x hcx ?_
          have k1 := hup x hx (hxs.trans hB) hcx hgx
          have k2 := hcross s x hx hB hc hg hcx hgx hfx hxs
          obtain ⟨k3, k4⟩ := hI x hx (hxs.trans hB) hcx
          by_cases hg2 : good (f x)
          · exact ih _ k3 k4 hg2 (by linarith)
          · exact ihm _ k3 hg2 (by linarith) (by linarith) (by linarith)
      obtain ⟨m, hm⟩ := exists_nat_gt ((s - f s) / δ)
      rw [div_lt_iff₀ hδ] at hm
      exact chain m _ h1 hg' le_rfl (by linarith) hm
  have A' : ∀ s, 0 < s → s ≤ B → good s → ∃ s', Py.Loop c f s s' := by
    intro s hs hB hg
    obtain ⟨n, hn⟩ := exists_nat_gt (s / δ)
    rw [div_lt_iff₀ hδ] at hn
    exact A n s hs hB hg hn
  have L : ∀ m : ℕ, ∀ x, 0 < x → x ≤ B → B - x < m * δ → ∃ s', Py.Loop c f x s' := by
    intro m
    induction m with
    | zero => intro x _ hx h; simp only [Nat.cast_zero, zero_mul] at h; linarith
    | succ m ihm =>
      intro x hx hB hm
      push_cast at hm
      by_cases hg : good x
      · exact A' x hx hB hg
      by_cases hcx : c x
      swap
      · exact ⟨x, .stop hcx⟩
      refine fwd x hcx ?_
      obtain ⟨k3, k4⟩ := hI x hx hB hcx
      have k1 := hup x hx hB hcx hg
      exact ihm _ k3 k4 (by linarith)
  obtain ⟨m, hm⟩ := exists_nat_gt ((B - s) / δ)
  rw [div_lt_iff₀ hδ] at hm
  exact L m s hs hsB hm

theorem tail_zero_gt' : 1 / 2 - 1e-9 < CNDError.tail CNDError.qCode 0 := by
  have h3 : √(2 * π) < 2.506628275 := by
    rw [sqrt_lt' (by norm_num)]
    have := pi_lt_d20
    norm_num at this ⊢
    linarith
  have h4 : (0 : ℝ) < √(2 * π) := sqrt_pos.2 (by positivity)
  have : CNDError.tail CNDError.qCode 0 = 1.253314136 / √(2 * π) := by
    simp only [CNDError.tail, φ, CNDError.kf, CNDError.qCode, PolyCheck.ev]; norm_num; ring
  rw [this, lt_div_iff₀ h4]
  have : ((1 : ℝ) / 2 - 1e-9) * √(2 * π) < (1 / 2 - 1e-9) * 2.506628275 := mul_lt_mul_of_pos_left h3 (by norm_num)
  refine this.trans (by norm_num)

theorem cndCont_near' (x : ℝ) : |CNDError.cndCont x - CND x| ≤ 1e-9 := by
  have h1 := tail_zero_gt'
  have h2 := CNDError.tail_zero_lt
  rcases lt_trichotomy x 0 with h | h | h
  · rw [CNDError.cndCont_neg h, abs_le]; constructor <;> linarith
  · rw [h, CND_zero, CNDError.cndCont]; simp; norm_num
  · rw [CNDError.cndCont_pos h, abs_le]; constructor <;> linarith

section
variable {K t r b σ s x y : ℝ}

theorem hPutC_near' (hK : 0 < K) (ht : 0 < t) (hr : 0 < r) (hb : b ≤ r) (hy : 0 < y)
    (hQ : BAW.Q1 t r b σ = -y) (hx : 0 < x) :
    |hPutC K t r b σ x - hPut K t r b σ x| ≤ 1e-9 * (K + x * (1 + 1 / y)) := by
  have h1 := cndCont_near' (-(BAW.d1 K t b σ x - σ * √t))
  have h2 := cndCont_near' (-(BAW.d1 K t b σ x))
  rw [hPut_eq, hPutC, hQ]
  have hR : exp (-r * t) ≤ 1 := exp_le_one_iff.2 (by nlinarith)
  have hR0 := exp_pos (-r * t)
  have hE := exp_pos ((b - r) * t)
  have hE1 : exp ((b - r) * t) ≤ 1 := exp_le_one_iff.2 (mul_nonpos_of_nonpos_of_nonneg (by linarith) ht.le)
  generalize exp ((b - r) * t) = E at *
  generalize exp (-r * t) = R at *
  rw [show ∀ A C D C' D' : ℝ, A - (K * R * C - x * E * D) + (1 - E * D) * x / -y
      - (A - (K * R * C' - x * E * D') + (1 - E * D') * x / -y)
      = x * (E * (1 + 1 / y)) * (D - D') - K * R * (C - C') by intros; field_simp; ring]
  have hq : 0 < 1 + 1 / y := by positivity
  refine (abs_sub _ _).trans ?_
  rw [abs_mul (x * _), abs_mul (K * R), abs_of_pos (by positivity : 0 < x * (E * (1 + 1 / y))), abs_of_pos (mul_pos hK hR0)]
  have a1 : x * (E * (1 + 1 / y)) * |CNDError.cndCont (-(BAW.d1 K t b σ x)) - CND (-(BAW.d1 K t b σ x))|
      ≤ x * (1 * (1 + 1 / y)) * 1e-9 :=
    mul_le_mul (mul_le_mul_of_nonneg_left (mul_le_mul_of_nonneg_right hE1 hq.le) hx.le) h2 (abs_nonneg _) (by positivity)
  have a2 : K * R * |CNDError.cndCont (-(BAW.d1 K t b σ x - σ * √t)) - CND (-(BAW.d1 K t b σ x - σ * √t))|
      ≤ K * 1 * 1e-9 :=
    mul_le_mul (mul_le_mul_of_nonneg_left hR hK.le) h1 (abs_nonneg _) (by positivity)
  linarith

/-- The slope used by the step, `1 + bi`. -/
theorem slopeUsedPut_eq (hy : 0 < y) (hv : 0 < σ * √t) (hQ : BAW.Q1 t r b σ = -y) :
    1 + BAW.biPut K t r b σ s = (1 - exp ((b - r) * t) * CND (-(BAW.d1 K t b σ s))) * (1 + 1 / y)
      + exp ((b - r) * t) * CND (-(BAW.d1 K t b σ s)) * (1 / (σ * √t * y)) := by
  unfold BAW.biPut
  rw [hQ]
  generalize CND (-(BAW.d1 K t b σ s)) = C
  generalize exp ((b - r) * t) = E
  generalize σ * √t = v at *
  simp only [div_neg]; field_simp; ring

/-- The slope used is at least half its smallest part. -/
theorem slopeUsedPut_ge (ht : 0 < t) (hb : b ≤ r) (hy : 0 < y) (hv : 0 < σ * √t) (hQ : BAW.Q1 t r b σ = -y)
    (h2 : 1 / 2 ≤ σ * √t * (1 + y)) : 1 / (σ * √t * y) / 2 ≤ 1 + BAW.biPut K t r b σ s := by
  rw [slopeUsedPut_eq hy hv hQ]
  obtain ⟨c0, c1⟩ := CNDError.CND_mem (-(BAW.d1 K t b σ s))
  have hE := exp_pos ((b - r) * t)
  have hE1 : exp ((b - r) * t) ≤ 1 := exp_le_one_iff.2 (mul_nonpos_of_nonpos_of_nonneg (by linarith) ht.le)
  obtain ⟨X, hX⟩ : ∃ X, X = exp ((b - r) * t) * CND (-(BAW.d1 K t b σ s)) := ⟨_, rfl⟩
  have hX0 : 0 ≤ X := by rw [hX]; positivity
  have hX1 : X ≤ 1 := by rw [hX]; exact mul_le_one₀ hE1 c0.le c1.le
  rw [← hX]
  generalize σ * √t = v at *
  have hP : 0 < 1 / (v * y) := by positivity
  have hC : 1 / (v * y) / 2 ≤ 1 + 1 / y := by
    rw [div_div, div_le_iff₀ (by positivity)]
    have : (1 + 1 / y) * (v * y * 2) = 2 * (v * (1 + y)) := by field_simp; ring
    rw [this]; linarith
  have h3 := mul_le_mul_of_nonneg_left hC (by linarith : 0 ≤ 1 - X)
  nlinarith

/-- Below `s` the slope is at most the one used in the step from `s` plus 0.421 of its smallest part. -/
theorem slopePut_le' (hK : 0 < K) (ht : 0 < t) (hσ : 0 < σ) (hb : b ≤ r) (hx : 0 < x) (hxs : x ≤ s) (hy : 0 < y)
    (hQ : BAW.Q1 t r b σ = -y) (hy' : y ≤ 2500) (hvy : σ * √t * (1 + y) ≤ 15) :
    slopePut K t r b σ x ≤ 1 + BAW.biPut K t r b σ s + 0.421 * (1 / (σ * √t * y)) := by
  have hst := sqrt_pos.2 ht
  have hv : 0 < σ * √t := by positivity
  have hC := CNDError.CND_strictMono.monotone (neg_le_neg (baw_d1_mono (b := b) hK ht hσ hx hxs))
  have hCc := abs_le.1 (cndCont_near' (-(BAW.d1 K t b σ x)))
  have hCs := (CNDError.CND_mem (-(BAW.d1 K t b σ s))).1
  have e1 := (abs_le.1 (CNDError.cndDens_error (-(BAW.d1 K t b σ x)))).2
  have e2 := CNDError.le_cndDens (-(BAW.d1 K t b σ x - σ * √t))
  have hid := baw_density (r := r) (b := b) hx hK ht hσ
  have hφ := CNDError.φ_le (BAW.d1 K t b σ x)
  have hφ0 := φ_pos (BAW.d1 K t b σ x)
  rw [φ_neg] at e1 e2
  have hR := exp_pos (-r * t)
  have hE := exp_pos ((b - r) * t)
  have hE1 : exp ((b - r) * t) ≤ 1 := exp_le_one_iff.2 (mul_nonpos_of_nonpos_of_nonneg (by linarith) ht.le)
  rw [slopeUsedPut_eq hy hv hQ]
  unfold slopePut
  rw [hQ]
  generalize CND (-(BAW.d1 K t b σ x)) = C at *
  generalize CND (-(BAW.d1 K t b σ s)) = C' at *
  generalize CNDError.cndCont (-(BAW.d1 K t b σ x)) = G at *
  generalize CNDError.cndDens (-(BAW.d1 K t b σ x)) = f at *
  generalize CNDError.cndDens (-(BAW.d1 K t b σ x - σ * √t)) = g at *
  generalize φ (BAW.d1 K t b σ x) = p at *
  generalize φ (BAW.d1 K t b σ x - σ * √t) = p' at *
  generalize exp ((b - r) * t) = E at *
  generalize exp (-r * t) = R at *
  generalize σ * √t = v at *
  have e0 : 1 - 1 / -y = 1 + 1 / y := by rw [div_neg]; ring
  rw [e0]
  have hw1 : 0 < 1 + 1 / y := by positivity
  have h1 : (1 - E * G) * (1 + 1 / y) ≤ (1 - E * C') * (1 + 1 / y) + 1e-9 * (1 + 1 / y) := by
    rw [← add_mul]
    refine mul_le_mul_of_nonneg_right ?_ hw1.le
    have h : E * (C' - 1e-9) ≤ E * G := mul_le_mul_of_nonneg_left (by linarith [hCc.1]) hE.le
    have : E * 1e-9 ≤ 1 * 1e-9 := mul_le_mul_of_nonneg_right hE1 (by norm_num)
    linarith
  have h1' : 1e-9 * (1 + 1 / y) ≤ 1.5e-8 * (1 / (v * y)) := by
    have : (1 + 1 / y) = v * (1 + y) * (1 / (v * y)) := by field_simp; ring
    rw [this]
    have : 0 < 1 / (v * y) := by positivity
    have := mul_le_mul_of_nonneg_right hvy this.le
    linarith
  have h2 : (1 - 1.4e-5) * (E * p) ≤ K * R * g / x := by
    rw [le_div_iff₀ hx]
    have := mul_le_mul_of_nonneg_left e2 (mul_pos hK hR).le
    nlinarith
  have h3 : E * f * (1 + 1 / y) - K * R * g / x ≤ 0.4201 / y := by
    have h4 : E * f * (1 + 1 / y) ≤ E * (p + 2.6e-6) * (1 + 1 / y) :=
      mul_le_mul_of_nonneg_right (mul_le_mul_of_nonneg_left (by linarith) hE.le) hw1.le
    have h6 : E * (p + 2.6e-6) * (1 + 1 / y) - (1 - 1.4e-5) * (E * p) = E * (p + 2.6e-6 + (2.6e-6 + 1.4e-5 * p) * y) / y := by
      field_simp; ring
    have h7 : p + 2.6e-6 + (2.6e-6 + 1.4e-5 * p) * y ≤ 0.4201 := by
      have : (2.6e-6 + 1.4e-5 * p) * y ≤ (2.6e-6 + 1.4e-5 * 0.4) * 2500 :=
        mul_le_mul (by linarith) (by linarith) hy.le (by norm_num)
      norm_num at this hφ ⊢
      linarith
    have h8 : E * (p + 2.6e-6 + (2.6e-6 + 1.4e-5 * p) * y) / y ≤ 0.4201 / y := by
      refine div_le_div_of_nonneg_right ?_ hy.le
      have h9 : 0 ≤ p + 2.6e-6 + (2.6e-6 + 1.4e-5 * p) * y := by positivity
      exact (mul_le_of_le_one_left h9 hE1).trans h7
    linarith
  have h7 := div_le_div_of_nonneg_right h3 hv.le
  have h8 : 0.4201 / y / v = 0.4201 * (1 / (v * y)) := by field_simp
  have h9 : 0 ≤ E * C' * (1 / (v * y)) := by positivity
  have h10 : 0 < 1 / (v * y) := by positivity
  rw [h8] at h7
  linarith

/-- The exponent of the put within the ranges considered. -/
theorem baw_Q1_range (ht : 0 < t) (hσ : 0 < σ) (hr : 0 < r) (hrt : r * t ≤ 30) (hv1 : 0.005 ≤ σ * √t)
    (hv2 : σ * √t ≤ 4) (hc1 : -(1.75 * (σ * √t)) ≤ b * t) (hc2 : b * t ≤ 2 * (σ * √t)) :
    ∃ y, 0 < y ∧ BAW.Q1 t r b σ = -y ∧ y ≤ 2500 ∧ 1 / 2 ≤ σ * √t * (1 + y) ∧ σ * √t * (1 + y) ≤ 15 ∧ 1 / y ≤ 23 := by
  obtain ⟨h1, -, h3⟩ := baw_roots (b := b) ht hσ hr
  have e := h3 _ (.inl rfl)
  obtain ⟨g1, g2⟩ := baw_G ht hr
  rw [← e] at g1 g2
  obtain ⟨y, hy⟩ : ∃ y, BAW.Q1 t r b σ = -y := ⟨-BAW.Q1 t r b σ, by ring⟩
  rw [hy] at h1 g1 g2
  have hv2' : (σ * √t) ^ 2 = σ ^ 2 * t := by rw [mul_pow, sq_sqrt ht.le]
  have hy0 : 0 < y := by linarith
  have q : (1 / 2 * σ ^ 2 * -y * (-y - 1) + b * -y) * t = 1 / 2 * (σ * √t) ^ 2 * (y * (y + 1)) - b * t * y := by
    rw [hv2']; ring
  rw [q] at g1 g2
  generalize σ * √t = v at *
  generalize b * t = c at *
  have hv0 : 0 < v := by linarith
  have hvy0 : 0 < v * y := by positivity
  have hvy : v * y ≤ 11 := by
    by_contra hlt
    rw [not_le] at hlt
    have k1 : c * y ≤ 2 * (v * y) := by
      have := mul_le_mul_of_nonneg_right hc2 hy0.le; linarith
    have k2 : 1 / 2 * v ^ 2 * (y * (y + 1)) = 1 / 2 * (v * y) * (v * y) + 1 / 2 * v * (v * y) := by ring
    have k3 : 11 * (v * y) ≤ (v * y) * (v * y) := mul_le_mul_of_nonneg_right hlt.le hvy0.le
    have k4 : 0 ≤ 1 / 2 * v * (v * y) := by positivity
    linarith
  refine ⟨y, hy0, hy, ?_, ?_, by linarith, ?_⟩
  · have := mul_le_mul_of_nonneg_right hv1 hy0.le
    linarith
  · by_contra hlt
    rw [not_le] at hlt
    have k1 : -(c * y) ≤ 1.75 * (v * y) := by
      have := mul_le_mul_of_nonneg_right hc1 hy0.le; linarith
    have k2 : 1 / 2 * v ^ 2 * (y * (y + 1)) = 1 / 2 * ((v * y) * (v * (1 + y))) := by ring
    have k3 : v * y ≤ 1 / 2 := by linarith
    have k4 : (v * y) * (v * (1 + y)) ≤ 1 / 2 * (1 / 2) := mul_le_mul k3 hlt.le (by positivity) (by norm_num)
    linarith
  · rw [div_le_iff₀ hy0]
    rcases le_or_gt 1 y with h | h
    · linarith
    · have k1 : -(c * y) ≤ 1.75 * (v * y) := by
        have := mul_le_mul_of_nonneg_right hc1 hy0.le; linarith
      have k2 : v * y ≤ 4 * y := mul_le_mul_of_nonneg_right hv2 hy0.le
      have k3 : 1 / 2 * v ^ 2 * (y * (y + 1)) ≤ 16 * y := by
        have a1 : v ^ 2 ≤ 16 := by nlinarith
        have a2 : y * (y + 1) ≤ y * 2 := mul_le_mul_of_nonneg_left (by linarith) hy0.le
        have a3 : v ^ 2 * (y * (y + 1)) ≤ 16 * (y * 2) := mul_le_mul a1 a2 (by positivity) (by norm_num)
        linarith
      linarith

theorem seedPut_le' (hK : 0 < K) (hσ : 0 < σ) (hr : 0 < r) (hc2 : b * t ≤ 2 * (σ * √t)) :
    BAW.seedPut K t r b σ ≤ K := by
  have hq := q1u_neg (b := b) hσ hr
  have e : BAW.seedPut K t r b σ = K / (1 - 1 / q1u r b σ) + (K - K / (1 - 1 / q1u r b σ)) *
        exp ((b * t - 2 * σ * √t) * K / (K - K / (1 - 1 / q1u r b σ))) := rfl
  have hi : 1 / q1u r b σ < 0 := one_div_neg.2 hq
  have h1 : 1 < 1 - 1 / q1u r b σ := by linarith
  have hD : 0 < K - K / (1 - 1 / q1u r b σ) := by
    rw [sub_pos, div_lt_iff₀ (by linarith)]; nlinarith
  have hexp : exp ((b * t - 2 * σ * √t) * K / (K - K / (1 - 1 / q1u r b σ))) ≤ 1 := by
    refine exp_le_one_iff.2 (div_nonpos_of_nonpos_of_nonneg (mul_nonpos_of_nonpos_of_nonneg ?_ hK.le) hD.le)
    linarith
  rw [e]
  have := mul_le_of_le_one_right hD.le hexp
  linarith

/-- Where exercising is worth nearly what the right-hand side is, the price is nearly below the strike. -/
theorem hPut_le (hK : 0 < K) (ht : 0 < t) (hσ : 0 < σ) (hr : 0 < r) (hb : b ≤ r) (hx : 0 < x) :
    hPut K t r b σ x ≤ K - x + 1e-7 * (K + x) := by
  have hQ := (baw_roots (b := b) ht hσ hr).1
  obtain ⟨u, hu, he⟩ := C02_price_accuracy ⟨hx, hK, ht, hσ⟩ r b false
  have hu' : u = gbsPutNum x K t r b σ := by
    have : (GBS.new x K t r b (some σ)).price false = .ok (gbsPutNum x K t r b σ) := rfl
    rw [this] at hu; injection hu with hu; exact hu.symm
  have h0 := bsPrice_nonneg false x K t r b σ
  have he' := (abs_le.1 he).1
  obtain ⟨c0, c1⟩ := CNDError.CND_mem (-(BAW.d1 K t b σ x))
  have hE := exp_pos ((b - r) * t)
  have hE1 : exp ((b - r) * t) ≤ 1 := exp_le_one_iff.2 (mul_nonpos_of_nonpos_of_nonneg (by linarith) ht.le)
  have hR : exp (-r * t) ≤ 1 := exp_le_one_iff.2 (by nlinarith)
  have h1 : (1 - exp ((b - r) * t) * CND (-(BAW.d1 K t b σ x))) * x / BAW.Q1 t r b σ ≤ 0 := by
    refine div_nonpos_of_nonneg_of_nonpos (mul_nonneg ?_ hx.le) hQ.le
    have := mul_le_one₀ hE1 c0.le c1.le
    linarith
  have h2 : x * exp ((b - r) * t) ≤ x * 1 := mul_le_mul_of_nonneg_left hE1 hx.le
  have h3 : K * exp (-r * t) ≤ K * 1 := mul_le_mul_of_nonneg_left hR hK.le
  unfold hPut BAW.rhsPut
  rw [← hu']
  generalize exp ((b - r) * t) = E at *
  generalize exp (-r * t) = R at *
  norm_num at he' ⊢
  linarith

/-- Growth of the target below `s`. -/
theorem hPut_growth (hK : 0 < K) (ht : 0 < t) (hσ : 0 < σ) (hr : 0 < r) (hb : b ≤ r) (hx : 0 < x) (hxs : x ≤ s) (hy : 0 < y)
    (hQ : BAW.Q1 t r b σ = -y) (hy1 : y ≤ 2500) (hy3 : σ * √t * (1 + y) ≤ 15) :
    hPut K t r b σ x ≤ hPut K t r b σ s + (1 + BAW.biPut K t r b σ s + 0.421 * (1 / (σ * √t * y))) * (s - x)
      + 1e-9 * (2 * K + (s + x) * (1 + 1 / y)) := by
  have hg := growth_two (f := fun x => -hPutC K t r b σ x) (f' := slopePut K t r b σ)
    (N := 1 + BAW.biPut K t r b σ s + 0.421 * (1 / (σ * √t * y)))
    (K * exp (0 * (σ * √t) - (b + σ ^ 2 / 2) * t))
    (K * exp (σ * √t * (σ * √t) - (b + σ ^ 2 / 2) * t)) hxs ?_ ?_ ?_
  · have n1 := (abs_le.1 (hPutC_near' (b := b) (σ := σ) hK ht hr hb hy hQ (hx.trans_le hxs))).2
    have n2 := (abs_le.1 (hPutC_near' (b := b) (σ := σ) hK ht hr hb hy hQ hx)).1
    linarith
  · intro z hz
    have hx0 : 0 < z := by linarith [hz.1]
    have hdc := (baw_d1_deriv (t := t) (b := b) (σ := σ) hx0 hK).continuousAt
    have hC : ContinuousAt (fun x => CNDError.cndCont (-(BAW.d1 K t b σ x))) z :=
      (CNDError.continuous_cndCont.continuousAt.comp hdc.neg)
    have hC2 : ContinuousAt (fun x => CNDError.cndCont (-(BAW.d1 K t b σ x - σ * √t))) z :=
      (CNDError.continuous_cndCont.continuousAt.comp (hdc.sub continuousAt_const).neg)
    refine ContinuousAt.continuousWithinAt ?_
    unfold hPutC
    exact (((continuousAt_const.sub continuousAt_id).sub ((continuousAt_const.mul hC2).sub
      ((continuousAt_id.mul continuousAt_const).mul hC))).add
      (((continuousAt_const.sub (continuousAt_const.mul hC)).mul continuousAt_id).div_const _)).neg
  · intro z hz hz1 hz2
    have hx0 : 0 < z := by linarith [hz.1]
    refine hPutC_deriv hK ht hσ hr hx0 (fun h => hz1 ?_) fun h => hz2 ?_
    · exact baw_d1_eq hK ht hσ hx0 h
    · exact baw_d1_eq hK ht hσ hx0 (by linarith)
  · exact fun z hz _ _ => slopePut_le' hK ht hσ hb (by linarith [hz.1]) hz.2.le hy hQ hy1 hy3

/-- The arithmetic of a crossing: from `s` down to `x` or further, then up from `x`. -/
private theorem cross_arith {K s x P d d' Hs Hx M ε : ℝ} (hK : 0 < K) (hP : 0 < P) (hd : P / 2 ≤ d) (hd' : P / 2 ≤ d')
    (hM : d + P ≤ M) (hxs : x ≤ s) (hfx : s + Hs / d ≤ x) (hc : 1e-6 * K < -Hs) (hcx : 1e-6 * K < Hx)
    (hg : Hx ≤ Hs + (d + 0.421 * P) * (s - x) + ε) (hε : ε ≤ 1e-7 * K) : x + Hx / d' ≤ s - 6e-8 * K / M := by
  have hd0 : 0 < d := by linarith
  have hd'0 : 0 < d' := by linarith
  have hM0 : 0 < M := by linarith
  have key : 0.9 * Hx ≤ (d + 0.421 * P) * (s - x) + Hs := by
    norm_num at hg hcx hε ⊢
    linarith
  have hax : d * (s - x) ≤ -Hs := by
    have h1 := mul_le_mul_of_nonneg_left (by linarith : s - x ≤ -(Hs / d)) hd0.le
    have : d * (Hs / d) = Hs := mul_div_cancel₀ _ hd0.ne'
    linarith
  have h3 : 0 ≤ P * (s - x) := mul_nonneg hP.le (by linarith)
  have hstepx : Hx / d' ≤ 0.936 * (s - x) := by
    rw [div_le_iff₀ hd'0]
    have h1 : 0.9 * Hx ≤ 0.421 * P * (s - x) := by linarith
    have h2 : P / 2 * (s - x) ≤ d' * (s - x) := mul_le_mul_of_nonneg_right hd' (by linarith)
    linarith
  have hdist : 1e-6 * K / M ≤ s - x := by
    rw [div_le_iff₀ hM0]
    have h1 : (d + 0.421 * P) * (s - x) ≤ M * (s - x) := mul_le_mul_of_nonneg_right (by linarith) (by linarith)
    linarith
  have : 6e-8 * K / M = 0.06 * (1e-6 * K / M) := by ring
  rw [this]
  linarith

/-- **C92, put.** With `b ≤ r`, volatility times root of maturity between 0.005 and 4, `r t ≤ 30` and the carry within
`-1.75 σ√t ≤ b t ≤ 2 σ√t` the search started at the seed ends. -/
theorem C92_search_put_carry (hK : 0 < K) (ht : 0 < t) (hσ : 0 < σ) (hr : 0 < r) (hb : b ≤ r) (hrt : r * t ≤ 30)
    (hv1 : 0.005 ≤ σ * √t) (hv2 : σ * √t ≤ 4) (hc1 : -(1.75 * (σ * √t)) ≤ b * t) (hc2 : b * t ≤ 2 * (σ * √t)) :
    ∃ Sk, 0 < Sk ∧ Sk ≤ 1.01 * K ∧ BAW.NewtonPut K t r b σ (BAW.seedPut K t r b σ) Sk := by
  obtain ⟨y, hy, hQ, hy1, hy2, hy3, hy4⟩ := baw_Q1_range (b := b) ht hσ hr hrt hv1 hv2 hc1 hc2
  have hv : 0 < σ * √t := by linarith
  have hs0 := (seedPut_of_root (b := b) hK ht hσ hr.le (q1u_neg (b := b) hσ hr)).1
  have hs1 := seedPut_le' (b := b) hK hσ hr hc2
  generalize BAW.seedPut K t r b σ = s₀ at *
  set P := 1 / (σ * √t * y) with hPd
  have hP : 0 < P := by positivity
  set M := 1 + 1 / y + P + P with hM
  have hM0 : 0 < M := by positivity
  set B := 1.01 * K + 2.1 * K * (σ * √t * y) with hB
  have hstep : ∀ s, (K - BAW.rhsPut K t r b σ s + BAW.biPut K t r b σ s * s) / (1 + BAW.biPut K t r b σ s)
      = s + hPut K t r b σ s / (1 + BAW.biPut K t r b σ s) := fun s => stepPut_eq ht hσ hr hb
  have hDlo : ∀ s, P / 2 ≤ 1 + BAW.biPut K t r b σ s := fun s => slopeUsedPut_ge ht hb hy hv hQ hy2
  have hDup : ∀ s, 1 + BAW.biPut K t r b σ s ≤ 1 + 1 / y + P := fun s => by
    have := slopeUsedPut_le (K := K) (s := s) ht hσ hr hb
    rw [hQ, mul_neg, div_neg, div_neg] at this
    linarith
  have hcond : ∀ s, |K - s - BAW.rhsPut K t r b σ s| / K > 0.000001 ↔ 1e-6 * K < |hPut K t r b σ s| := fun s => by
    rw [gt_iff_lt, lt_div_iff₀ hK]; unfold hPut; norm_num
  have hleft : ∀ s, 0 < s → -(1e-6 * K) ≤ hPut K t r b σ s → s ≤ 1.01 * K := by
    intro s hs h
    have := hPut_le (b := b) hK ht hσ hr hb hs
    linarith
  suffices h : ∃ Sk, BAW.NewtonPut K t r b σ s₀ Sk by
    obtain ⟨Sk, hL⟩ := h
    have hpos : 0 < Sk := hL.inv (P := fun s => 0 < s) (fun s hs _ => baw_stepPut_pos hK ht hσ hr hb hs) hs0
    refine ⟨Sk, hpos, hleft Sk hpos ?_, hL⟩
    have := hL.exit
    rw [hcond, not_lt] at this
    exact (abs_le.1 this).1
  have hδ : 0 < 6e-8 * K / M := by positivity
  refine loop_ends_cross (c := fun s => |K - s - BAW.rhsPut K t r b σ s| / K > 0.000001)
    (f := fun s => (K - BAW.rhsPut K t r b σ s + BAW.biPut K t r b σ s * s) / (1 + BAW.biPut K t r b σ s))
    (good := fun s => hPut K t r b σ s < 0) (B := B) hδ ?_ ?_ ?_ ?_ s₀ hs0 ?_
  · intro s hs hsB hc
    refine ⟨baw_stepPut_pos hK ht hσ hr hb hs, ?_⟩
    simp only [hstep]
    have hD := hDlo s
    rcases lt_or_ge (hPut K t r b σ s) 0 with hn | hn
    · have := div_neg_of_neg_of_pos hn (by linarith : 0 < 1 + BAW.biPut K t r b σ s)
      linarith
    · have k1 := hleft s hs (by linarith [mul_pos (by norm_num : (0:ℝ) < 1e-6) hK])
      have k2 := hPut_le (b := b) hK ht hσ hr hb hs
      have k3 : hPut K t r b σ s / (1 + BAW.biPut K t r b σ s) ≤ 1.05 * K / (P / 2) :=
        div_le_div₀ (by linarith) (by linarith) (by linarith) hD
      have k4 : 1.05 * K / (P / 2) = 2.1 * K * (σ * √t * y) := by rw [hPd]; field_simp; norm_num
      linarith
  · intro s hs hsB hc hn
    rw [hcond] at hc
    simp only [hstep]
    have hD := hDlo s
    have hD2 := hDup s
    rw [abs_of_neg hn] at hc
    have : 6e-8 * K / M ≤ -hPut K t r b σ s / (1 + BAW.biPut K t r b σ s) :=
      div_le_div₀ (by linarith) (by linarith) (by linarith) (by linarith)
    rw [neg_div] at this
    linarith
  · intro s hs hsB hc hn
    rw [hcond] at hc
    simp only [hstep]
    have hD := hDlo s
    have hD2 := hDup s
    simp only [not_lt] at hn
    rw [abs_of_nonneg hn] at hc
    have : 6e-8 * K / M ≤ hPut K t r b σ s / (1 + BAW.biPut K t r b σ s) :=
      div_le_div₀ (by linarith) (by linarith) (by linarith) (by linarith)
    linarith
  · intro s x hx hsB hc hn hcx hnx hfx hxs
    rw [hcond] at hc hcx
    simp only [hstep] at hfx ⊢
    simp only [not_lt] at hn hnx
    rw [abs_of_neg hn] at hc
    rw [abs_of_nonneg hnx] at hcx
    have hs : 0 < s := hx.trans_le hxs
    have hxK := hleft x hx (by linarith [mul_pos (by norm_num : (0:ℝ) < 1e-6) hK])
    have hC0 : 0 < 1 + 1 / y := by positivity
    have hsC : s * (1 + 1 / y) ≤ 1.01 * K * 24 + 2.1 * K * 15 := by
      have a1 : s * (1 + 1 / y) ≤ B * (1 + 1 / y) := mul_le_mul_of_nonneg_right hsB hC0.le
      have a2 : B * (1 + 1 / y) = 1.01 * K * (1 + 1 / y) + 2.1 * K * (σ * √t * (1 + y)) := by
        rw [hB]; field_simp; ring
      have a3 : 1.01 * K * (1 + 1 / y) ≤ 1.01 * K * 24 := mul_le_mul_of_nonneg_left (by linarith) (by positivity)
      have a4 : 2.1 * K * (σ * √t * (1 + y)) ≤ 2.1 * K * 15 := mul_le_mul_of_nonneg_left hy3 (by positivity)
      linarith
    have hxC : x * (1 + 1 / y) ≤ 1.01 * K * 24 := mul_le_mul hxK (by linarith) hC0.le (by positivity)
    have hD2 := hDup s
    refine cross_arith hK hP (hDlo s) (hDlo x) (by linarith) hxs hfx hc hcx
      (hPut_growth hK ht hσ hr hb hx hxs hy hQ hy1 hy3) ?_
    norm_num at hsC hxC ⊢
    linarith
  · have : 0 < 2.1 * K * (σ * √t * y) := by positivity
    linarith

end

/-- **C92, put.** Under the conditions of `C92_search_put_carry`, `put()` returns for every spot, a number within the stated
distance of the quadratic approximation. -/
theorem C92_put_carry {S K t r b σ Q A Sx : ℝ} (hS : 0 < S) (hK : 0 < K) (ht : 0 < t) (hσ : 0 < σ) (hr : 0 < r) (hb : b ≤ r)
    (hrt : r * t ≤ 30) (hv1 : 0.005 ≤ σ * √t) (hv2 : σ * √t ≤ 4) (hc1 : -(1.75 * (σ * √t)) ≤ b * t) (hc2 : b * t ≤ 2 * (σ * √t))
    (hx : IsQuadApprox false K t r b σ Q A Sx) :
    ∃ p Sk, 0 < Sk ∧ BAWFloat.Put S K t r b σ (.num p) ∧
      |Sk - Sx| ≤ searchErr K t r b Q Sk / ((1 - exp ((b - r) * t) * Φ (-(BAW.d1 K t b σ (min Sk Sx)))) * (1 - 1 / Q)) ∧
      |p - quadValue false K t r b σ Q A Sx S|
        ≤ (1 + lip t r b σ Q) * |Sk - Sx| + searchErr K t r b Q Sk + eurErr K t r b S + premErr t r b Q Sk := by
  obtain ⟨Sk, hSk, -, hN⟩ := C92_search_put_carry hK ht hσ hr hb hrt hv1 hv2 hc1 hc2
  obtain ⟨h1, h2⟩ := seedPut_of_root (K := K) (t := t) hK ht hσ hr.le (q1u_neg (b := b) hσ hr)
  have hL := newtonPut_lift hK ht hσ hr hb h1 hN
  have hput : ∃ x, BAWFloat.Put S K t r b σ x := by
    unfold BAWFloat.Put
    by_cases hlt : Fl.lt (.num Sk) (.num S)
    · exact ⟨_, _, by rw [h2]; exact hL, .inl ⟨hlt, rfl⟩⟩
    · exact ⟨_, _, by rw [h2]; exact hL, .inr ⟨hlt, rfl⟩⟩
  obtain ⟨x, hput⟩ := hput
  obtain ⟨p, Sk', rfl, h3, h4, h5⟩ := C91_put_partial hS hK ht hσ hr hb hput hx
  exact ⟨p, Sk', h3, hput, h4, h5⟩

/-- Non-vacuous: a year's put on a stock at 20% volatility, an interest rate of 5% and no dividends. -/
theorem C92_carry_example : ∃ Sk, 0 < Sk ∧ Sk ≤ 1.01 * 100 ∧ BAW.NewtonPut 100 1 0.05 0.05 0.2 (BAW.seedPut 100 1 0.05 0.05 0.2) Sk :=
  C92_search_put_carry (by norm_num) (by norm_num) (by norm_num) (by norm_num) (by norm_num) (by norm_num) (by norm_num)
    (by norm_num) (by norm_num) (by norm_num)

end Verif.Props
