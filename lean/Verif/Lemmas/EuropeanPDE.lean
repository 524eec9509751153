import Verif.Lemmas.BarrierCallValue
import Verif.Lemmas.RGWValue
import Verif.Lemmas.GBSRounding

/-!
The European call as a solution of the Black–Scholes equation, and its comparison with the barrier call.
-/
namespace Verif
open Real Spec Filter Topology Set

theorem bsCall_cutPow {K r b σ S T : ℝ} (hK : 0 < K) (hσ : 0 < σ) (hS : 0 < S) (hT : 0 < T) :
    bsCall S K T r b σ = cutPow r b σ 1 K 1 S T + -K * cutPow r b σ 0 K 1 S T := by
  have hs : √T ≠ 0 := (sqrt_pos.2 hT).ne'
  have htt : √T ^ 2 = T := sq_sqrt hT.le
  have e1 : stdDist b σ 1 K S T = D1 S K T b σ := by
    unfold stdDist D1 GBS.d1Expr; congr 1; ring
  have e0 : stdDist b σ 0 K S T = D1 S K T b σ - σ * √T := by
    rw [← e1, stdDist, stdDist, eq_sub_iff_add_eq, div_add' _ _ _ (by positivity)]
    congr 1
    linear_combination σ ^ 2 * htt
  rw [bsCall_eq hS hK hT hσ, cutPow, cutPow, one_mul, one_mul, e1, e0, rpow_one, rpow_zero, powRate, powRate,
    show (-r + 1 * b + 1 / 2 * 1 * (1 - 1) * σ ^ 2) * T = (b - r) * T by ring,
    show (-r + 0 * b + 1 / 2 * 0 * (0 - 1) * σ ^ 2) * T = -r * T by ring]
  ring

theorem bsCall_solves {K σ S T : ℝ} (r b : ℝ) (hK : 0 < K) (hσ : 0 < σ) (hS : 0 < S) (hT : 0 < T) :
    SolvesBS r b σ (fun s t => bsCall s K t r b σ) S T :=
  SolvesBSLemmas.congr hS hT (fun s t h1 h2 => (bsCall_cutPow hK hσ h1 h2).symm)
    (SolvesBSLemmas.add (solves_cutPow r b 1 1 (by norm_num) hσ hK hS hT)
      (SolvesBSLemmas.smul (-K) (solves_cutPow r b 0 1 (by norm_num) hσ hK hS hT)))

theorem cutPow_continuousOn (γ r b ε : ℝ) {H σ : ℝ} (hH : 0 < H) (hσ : 0 < σ) :
    ContinuousOn (fun q : ℝ × ℝ => cutPow r b σ γ H ε q.1 q.2) (Ioi 0 ×ˢ Ioi 0) := by
  have h1 : ContinuousOn (fun q : ℝ × ℝ => σ * √q.2) (Ioi 0 ×ˢ Ioi 0) := by fun_prop
  have h0 : ∀ q ∈ (Ioi (0:ℝ) ×ˢ Ioi (0:ℝ)), σ * √q.2 ≠ 0 := fun q hq =>
    (mul_pos hσ (sqrt_pos.2 hq.2)).ne'
  have hl : ContinuousOn (fun q : ℝ × ℝ => log (q.1 / H)) (Ioi 0 ×ˢ Ioi 0) :=
    (continuousOn_fst.div_const H).log fun q hq => (div_pos hq.1 hH).ne'
  have hdist : ContinuousOn (fun q : ℝ × ℝ => stdDist b σ γ H q.1 q.2) (Ioi 0 ×ˢ Ioi 0) :=
    (hl.add (by fun_prop)).div h1 h0
  have hp : ContinuousOn (fun q : ℝ × ℝ => q.1 ^ γ) (Ioi 0 ×ˢ Ioi 0) :=
    continuousOn_fst.rpow_const fun q hq => Or.inl (show (0:ℝ) < q.1 from hq.1).ne'
  unfold cutPow
  exact (by fun_prop : ContinuousOn (fun q : ℝ × ℝ => exp (powRate r b σ γ * q.2)) (Ioi 0 ×ˢ Ioi 0)).mul
    (hp.mul (continuous_Φ.comp_continuousOn (continuousOn_const.mul hdist)))

theorem bsCall_continuousOn (r b : ℝ) {K σ : ℝ} (hK : 0 < K) (hσ : 0 < σ) :
    ContinuousOn (fun q : ℝ × ℝ => bsCall q.1 K q.2 r b σ) (Ioi 0 ×ˢ Ioi 0) :=
  ((cutPow_continuousOn 1 r b 1 hK hσ).add (continuousOn_const.mul (cutPow_continuousOn 0 r b 1 hK hσ))).congr
    fun q hq => bsCall_cutPow hK hσ hq.1 hq.2

/-- At expiry the European call is not above its payoff. -/
theorem bsCall_corner {D : Set (ℝ × ℝ)} (hD : ∀ q ∈ D, 0 < q.1 ∧ 0 < q.2) (r b : ℝ) {K σ S₀ : ℝ} (hK : 0 < K)
    (hσ : 0 < σ) (hS : 0 < S₀) {ε : ℝ} (hε : 0 < ε) :
    ∀ᶠ q : ℝ × ℝ in 𝓝[D] (S₀, 0), bsCall q.1 K q.2 r b σ < max (S₀ - K) 0 + ε := by
  have h1 := corner_cutPow_diff (S₀ := S₀) hD r b 1 0 1 (by norm_num) (H := K) hσ hS
  have h2 := (corner_exp (D := D) (S₀ := S₀) (-r)).const_mul (max (S₀ - K) 0)
  have h3 := h1.add h2
  rw [zero_add, mul_one] at h3
  filter_upwards [h3.eventually_lt_const (show max (S₀ - K) 0 < max (S₀ - K) 0 + ε by linarith), self_mem_nhdsWithin]
    with q hq hqD
  obtain ⟨q1, q2⟩ := hD q hqD
  rw [bsCall_cutPow hK hσ q1 q2]
  have e : cutPow r b σ 0 K 1 q.1 q.2 ≤ exp (-r * q.2) ∧ 0 ≤ cutPow r b σ 0 K 1 q.1 q.2 := by
    rw [cutPow, rpow_zero, powRate, show (-r + 0 * b + 1 / 2 * 0 * (0 - 1) * σ ^ 2) * q.2 = -r * q.2 by ring]
    constructor
    · have := (Φ_lt_one (1 * stdDist b σ 0 K q.1 q.2)).le
      have := exp_pos (-r * q.2)
      nlinarith
    · have := Φ_nonneg (1 * stdDist b σ 0 K q.1 q.2)
      positivity
  have h4 : (S₀ - K) * cutPow r b σ 0 K 1 q.1 q.2 ≤ max (S₀ - K) 0 * exp (-r * q.2) :=
    (mul_le_mul_of_nonneg_right (le_max_left _ 0) e.2).trans (mul_le_mul_of_nonneg_left e.1 (le_max_right _ _))
  have e2 : S₀ ^ ((1:ℝ) - 0) = S₀ := by simp
  rw [e2] at hq
  linarith

theorem bsCall_carry' {S S' K t r b σ : ℝ} (ht : 0 ≤ t) (hb : b ≤ r) (h : S ≤ S') :
    bsCall S K t r b σ ≤ bsCall S' K t r b σ ∧ bsCall S' K t r b σ - bsCall S K t r b σ ≤ S' - S := by
  have e : ∀ S, bsCall S K t r b σ = exp ((b - r) * t) * bsCall S K t b b σ := fun S => by
    unfold bsCall
    rw [← mul_assoc, ← exp_add]; congr 2; ring
  have h1 := bsCall_lipschitz (K := K) (r := b) (σ := σ) ht h
  have h2 : exp ((b - r) * t) ≤ 1 := exp_le_one_iff.2 (mul_nonpos_of_nonpos_of_nonneg (by linarith) ht)
  have h3 := exp_pos ((b - r) * t)
  rw [e S, e S']
  constructor
  · exact mul_le_mul_of_nonneg_left h1.1 h3.le
  · rw [← mul_sub]
    nlinarith [h1.1, h1.2]

/-- The European call exceeds the call exercised at the level `I` by no more than at that level. -/
theorem barrierCall_ge_european {r b σ K I m : ℝ} (hr : 0 ≤ r) (hb : b ≤ r) (hσ : 0 < σ) (hK : 0 < K) (hKI : K ≤ I)
    (hm : 0 ≤ m) {V : ℝ → ℝ → ℝ} (hV : IsBarrierCall r b σ K I V) {S T : ℝ} (hS : 0 < S) (hSI : S < I) (hT : 0 < T)
    (hI : ∀ τ, 0 < τ → τ ≤ T → bsCall I K τ r b σ ≤ I - K + m) : bsCall S K T r b σ ≤ V S T + m := by
  have hI0 : 0 < I := hK.trans_le hKI
  have hsub : Ioo 0 I ×ˢ Ioi (0:ℝ) ⊆ Ioi 0 ×ˢ Ioi 0 := fun q hq => ⟨hq.1.1, hq.2⟩
  have hpos : ∀ q ∈ Ioo 0 I ×ˢ Ioi (0:ℝ), 0 < q.1 ∧ 0 < q.2 := fun q hq => ⟨hq.1.1, hq.2⟩
  have h := bs_max_principle_upto (r := r) (b := b) (σ := σ) (I := I) (S := S) (T := T)
    (W := fun s t => (bsCall s K t r b σ + -1 * V s t) - m)
    ((((bsCall_continuousOn r b hK hσ).mono hsub).add (continuousOn_const.mul hV.continuous)).sub continuousOn_const)
    (fun s t h1 h2 h3 => by
      obtain ⟨V1, V2, V3, a1, a2, a3, a4⟩ := SolvesBSLemmas.add (bsCall_solves r b hK hσ h1 h3)
        (SolvesBSLemmas.smul (-1) (hV.equation s t h1 h2 h3))
      refine ⟨V1, V2, V3, a1.mono fun x hx => hx.sub_const m, a2, a3.sub_const m, ?_⟩
      rw [a4]
      nlinarith [mul_nonneg hr hm])
    (fun s t h1 h2 h3 h4 h5 ε hε => by
      have hv := hV.boundary s t h1 h2 h3 h5
      have hv' := hv.eventually_const_lt (show max (s - K) 0 - ε / 2 < max (s - K) 0 by linarith)
      have hc : ∀ᶠ q : ℝ × ℝ in 𝓝[Ioo 0 I ×ˢ Ioi 0] (s, t), bsCall q.1 K q.2 r b σ < max (s - K) 0 + m + ε / 2 := by
        rcases h3.eq_or_lt with rfl | ht
        · filter_upwards [bsCall_corner (D := Ioo 0 I ×ˢ Ioi 0) hpos r b hK hσ h1 (half_pos hε)] with q hq
          linarith
        · have hsI : s = I := h5.resolve_right ht.ne'
          subst hsI
          have hc := ((bsCall_continuousOn r b hK hσ) (s, t) ⟨h1, ht⟩).mono hsub
          refine hc.eventually_lt_const ?_
          have := hI t ht h4
          have := le_max_left (s - K) 0
          simp only
          linarith
      filter_upwards [hv', hc] with q a1 a2
      linarith)
    (fun T₁ => by
      obtain ⟨C, hC⟩ := hV.bounded T₁
      refine ⟨I + bsCall 0 K 0 r b σ + C + K, fun s t h1 h2 h3 h4 => ?_⟩
      have a := (abs_le.1 (hC s t h1 h2 h3 h4)).1
      have a2 : bsCall s K t r b σ ≤ s := by
        rw [bsCall_eq h1 hK h3 hσ]
        have e1 : exp ((b - r) * t) ≤ 1 := exp_le_one_iff.2 (mul_nonpos_of_nonpos_of_nonneg (by linarith) h3.le)
        have e2 := (Φ_lt_one (D1 s K t b σ)).le
        have e3 := Φ_nonneg (D1 s K t b σ)
        have e4 : 0 ≤ K * exp (-r * t) * Φ (D1 s K t b σ - σ * √t) :=
          mul_nonneg (mul_nonneg hK.le (exp_pos _).le) (Φ_nonneg _)
        have e5 : s * exp ((b - r) * t) * Φ (D1 s K t b σ) ≤ s := by
          rw [mul_assoc]
          exact mul_le_of_le_one_right h1.le (mul_le_one₀ e1 e3 e2)
        linarith
      have a3 := bsCall_nonneg 0 K 0 r b σ
      linarith) hS hSI hT
  linarith

/-- The at-the-money European call. -/
theorem bsCall_atm_le {K τ r b σ : ℝ} (hr : 0 ≤ r) (hb : b ≤ r) (hK : 0 < K) (hτ : 0 < τ) (hσ : 0 < σ) :
    bsCall K K τ r b σ ≤ K * (max b 0 * τ + 0.4 * (σ * √τ)) := by
  rw [bsCall_eq hK hK hτ hσ]
  have hs := sqrt_pos.2 hτ
  have h1 := Φ_dist (D1 K K τ b σ) (D1 K K τ b σ - σ * √τ)
  rw [sub_sub_cancel, abs_of_pos (mul_pos hσ hs)] at h1
  have h2 := (abs_le.1 h1).2
  have h3 := Φ_nonneg (D1 K K τ b σ)
  have h4 := (Φ_lt_one (D1 K K τ b σ)).le
  have e0 : exp (-r * τ) ≤ 1 := exp_le_one_iff.2 (by nlinarith)
  have e1 : exp ((b - r) * τ) - exp (-r * τ) ≤ max b 0 * τ := by
    rcases le_total b 0 with hb0 | hb0
    · rw [max_eq_right hb0, zero_mul, sub_nonpos, exp_le_exp]
      nlinarith
    · rw [max_eq_left hb0]
      have a1 : exp ((b - r) * τ) ≤ 1 := exp_le_one_iff.2 (mul_nonpos_of_nonpos_of_nonneg (by linarith) hτ.le)
      have a2 := add_one_le_exp (-(b * τ))
      have a3 : exp (-r * τ) = exp ((b - r) * τ) * exp (-(b * τ)) := by rw [← exp_add]; congr 1; ring
      rw [a3]
      have := exp_pos ((b - r) * τ)
      have a4 : 0 ≤ b * τ := by positivity
      have a5 : exp ((b - r) * τ) * (1 - b * τ) ≤ exp ((b - r) * τ) * exp (-(b * τ)) :=
        mul_le_mul_of_nonneg_left (by linarith) this.le
      nlinarith
  have e2 := exp_pos (-r * τ)
  have e3 : (exp ((b - r) * τ) - exp (-r * τ)) * Φ (D1 K K τ b σ) ≤ max b 0 * τ := by
    have : 0 ≤ max b 0 * τ := mul_nonneg (le_max_right _ _) hτ.le
    nlinarith
  have e4 : exp (-r * τ) * (Φ (D1 K K τ b σ) - Φ (D1 K K τ b σ - σ * √τ)) ≤ 0.4 * (σ * √τ) := by
    have a : 0 ≤ 0.4 * (σ * √τ) := by positivity
    calc _ ≤ exp (-r * τ) * (0.4 * (σ * √τ)) := mul_le_mul_of_nonneg_left h2 e2.le
      _ ≤ 1 * (0.4 * (σ * √τ)) := mul_le_mul_of_nonneg_right e0 a
      _ = _ := one_mul _
  calc _ = K * ((exp ((b - r) * τ) - exp (-r * τ)) * Φ (D1 K K τ b σ)
      + exp (-r * τ) * (Φ (D1 K K τ b σ) - Φ (D1 K K τ b σ - σ * √τ))) := by ring
    _ ≤ _ := mul_le_mul_of_nonneg_left (by linarith) hK.le
end Verif
