import Verif.Lemmas.BarrierValue
import Verif.Lemmas.CBNDAll
import Verif.Lemmas.BSUnique

/-!
The Bjerksund–Stensland formula with the exact normal distribution is the value of the barrier call.
-/
namespace Verif
open Real Spec Filter Topology Set

/-- The formula of `BS93.below` with `barPhi` for `BS93.phi`, as a function of spot and time to expiry. -/
noncomputable def barCall (β K I r b σ S T : ℝ) : ℝ :=
  (I - K) * I ^ (-β) * S ^ β + -((I - K) * I ^ (-β)) * barPhi β I I r b σ S T + barPhi 1 I I r b σ S T
    + -1 * barPhi 1 K I r b σ S T + -K * barPhi 0 I I r b σ S T + K * barPhi 0 K I r b σ S T

theorem barPhi_continuousOn (γ r b : ℝ) {H I σ : ℝ} (hH : 0 < H) (hI : 0 < I) (hσ : 0 < σ) :
    ContinuousOn (fun q : ℝ × ℝ => barPhi γ H I r b σ q.1 q.2) (Ioi 0 ×ˢ Ioi 0) := by
  have h1 : ContinuousOn (fun q : ℝ × ℝ => σ * √q.2) (Ioi 0 ×ˢ Ioi 0) := by fun_prop
  have h0 : ∀ q ∈ (Ioi (0:ℝ) ×ˢ Ioi (0:ℝ)), σ * √q.2 ≠ 0 := fun q hq =>
    (mul_pos hσ (sqrt_pos.2 hq.2)).ne'
  have hl : ContinuousOn (fun q : ℝ × ℝ => log (q.1 / H)) (Ioi 0 ×ˢ Ioi 0) :=
    (continuousOn_fst.div_const H).log fun q hq => (div_pos hq.1 hH).ne'
  have hd : ContinuousOn (fun q : ℝ × ℝ => I / q.1) (Ioi 0 ×ˢ Ioi 0) :=
    continuousOn_const.div continuousOn_fst fun q hq => (show (0:ℝ) < q.1 from hq.1).ne'
  have hli : ContinuousOn (fun q : ℝ × ℝ => log (I / q.1)) (Ioi 0 ×ˢ Ioi 0) :=
    hd.log fun q hq => (div_pos hI hq.1).ne'
  have hdist : ContinuousOn (fun q : ℝ × ℝ => stdDist b σ γ H q.1 q.2) (Ioi 0 ×ˢ Ioi 0) :=
    (hl.add (by fun_prop)).div h1 h0
  have hp : ∀ δ : ℝ, ContinuousOn (fun q : ℝ × ℝ => q.1 ^ δ) (Ioi 0 ×ˢ Ioi 0) := fun δ =>
    continuousOn_fst.rpow_const fun q hq => Or.inl (show (0:ℝ) < q.1 from hq.1).ne'
  have hk : ContinuousOn (fun q : ℝ × ℝ => (I / q.1) ^ (2 * b / σ ^ 2 + (2 * γ - 1))) (Ioi 0 ×ˢ Ioi 0) :=
    hd.rpow_const fun q hq => Or.inl (div_pos hI hq.1).ne'
  unfold barPhi
  refine ((by fun_prop : ContinuousOn (fun q : ℝ × ℝ => exp (powRate r b σ γ * q.2)) (Ioi 0 ×ˢ Ioi 0)).mul (hp γ)).mul
    ((continuous_Φ.comp_continuousOn hdist.neg).sub (hk.mul (continuous_Φ.comp_continuousOn
      (hdist.neg.sub ((continuousOn_const.mul hli).div h1 h0)))))

theorem barCall_continuousOn (β r b : ℝ) {K I σ : ℝ} (hK : 0 < K) (hI : 0 < I) (hσ : 0 < σ) :
    ContinuousOn (fun q : ℝ × ℝ => barCall β K I r b σ q.1 q.2) (Ioi 0 ×ˢ Ioi 0) := by
  have hp : ContinuousOn (fun q : ℝ × ℝ => q.1 ^ β) (Ioi 0 ×ˢ Ioi 0) :=
    continuousOn_fst.rpow_const fun q hq => Or.inl (show (0:ℝ) < q.1 from hq.1).ne'
  have h := fun γ => barPhi_continuousOn γ r b hI hI hσ
  have h' := fun γ => barPhi_continuousOn γ r b hK hI hσ
  exact (((((continuousOn_const.mul hp).add (continuousOn_const.mul (h β))).add (h 1)).add
    (continuousOn_const.mul (h' 1))).add (continuousOn_const.mul (h 0))).add (continuousOn_const.mul (h' 0))

theorem Φ_abs_lipschitz (x y : ℝ) : |Φ x - Φ y| ≤ |x - y| := by
  have h2π : 1 ≤ √(2 * π) := by
    rw [one_le_sqrt]; linarith [pi_gt_three]
  have key : ∀ x y : ℝ, x ≤ y → |Φ x - Φ y| ≤ |x - y| := by
    intro x y h
    have h1 := Φ_lipschitz h
    have h3 := Φ_strictMono.monotone h
    have h4 : (y - x) / √(2 * π) ≤ y - x := div_le_self (by linarith) h2π
    rw [abs_sub_comm, abs_sub_comm x, abs_of_nonneg (by linarith), abs_of_nonneg (by linarith)]
    linarith
  rcases le_total x y with h | h
  · exact key x y h
  · rw [abs_sub_comm, abs_sub_comm x]; exact key y x h

section corner
variable {D : Set (ℝ × ℝ)} {S₀ : ℝ}

theorem corner_fst : Tendsto (fun q : ℝ × ℝ => q.1) (𝓝[D] (S₀, 0)) (𝓝 S₀) :=
  (continuous_fst.tendsto (S₀, (0:ℝ))).mono_left nhdsWithin_le_nhds
theorem corner_snd : Tendsto (fun q : ℝ × ℝ => q.2) (𝓝[D] (S₀, 0)) (𝓝 0) :=
  (continuous_snd.tendsto (S₀, (0:ℝ))).mono_left nhdsWithin_le_nhds
theorem corner_sqrt : Tendsto (fun q : ℝ × ℝ => √q.2) (𝓝[D] (S₀, 0)) (𝓝 0) := by
  have := (continuous_sqrt.tendsto 0).comp (corner_snd (D := D) (S₀ := S₀))
  rwa [sqrt_zero] at this
theorem corner_exp (k : ℝ) : Tendsto (fun q : ℝ × ℝ => exp (k * q.2)) (𝓝[D] (S₀, 0)) (𝓝 1) := by
  have := (continuous_exp.tendsto 0).comp (by simpa using (corner_snd (D := D) (S₀ := S₀)).const_mul k :
    Tendsto (fun q : ℝ × ℝ => k * q.2) (𝓝[D] (S₀, 0)) (𝓝 0))
  rwa [exp_zero] at this

theorem corner_dist (hD : ∀ q ∈ D, 0 < q.2) (b γ : ℝ) {σ H : ℝ} (hσ : 0 < σ) (hH : 0 < H) (hS : 0 < S₀) :
    (S₀ < H → Tendsto (fun q : ℝ × ℝ => stdDist b σ γ H q.1 q.2) (𝓝[D] (S₀, 0)) atBot) ∧
    (H < S₀ → Tendsto (fun q : ℝ × ℝ => stdDist b σ γ H q.1 q.2) (𝓝[D] (S₀, 0)) atTop) := by
  have hinv : Tendsto (fun q : ℝ × ℝ => (σ * √q.2)⁻¹) (𝓝[D] (S₀, 0)) atTop := by
    refine Tendsto.comp tendsto_inv_nhdsGT_zero (tendsto_nhdsWithin_iff.2 ⟨?_, ?_⟩)
    · simpa using (corner_sqrt (D := D) (S₀ := S₀)).const_mul σ
    · filter_upwards [self_mem_nhdsWithin] with q hq using mul_pos hσ (sqrt_pos.2 (hD q hq))
  have hnum : Tendsto (fun q : ℝ × ℝ => log (q.1 / H) + (b + (γ - 1 / 2) * σ ^ 2) * q.2) (𝓝[D] (S₀, 0))
      (𝓝 (log (S₀ / H))) := by
    have h1 := ((continuousAt_log (div_pos hS hH).ne').tendsto).comp ((corner_fst (D := D) (S₀ := S₀)).div_const H)
    have h2 := (corner_snd (D := D) (S₀ := S₀)).const_mul (b + (γ - 1 / 2) * σ ^ 2)
    simpa using h1.add h2
  refine ⟨fun h => ?_, fun h => ?_⟩
  · have hl : log (S₀ / H) < 0 := log_neg (by positivity) ((div_lt_one hH).2 h)
    exact hnum.neg_mul_atTop hl hinv
  · have hl : 0 < log (S₀ / H) := log_pos ((one_lt_div hH).2 h)
    exact hnum.pos_mul_atTop hl hinv

theorem corner_rpow (hS : 0 < S₀) (γ : ℝ) : Tendsto (fun q : ℝ × ℝ => q.1 ^ γ) (𝓝[D] (S₀, 0)) (𝓝 (S₀ ^ γ)) :=
  (corner_fst (D := D)).rpow_const (Or.inl hS.ne')

theorem corner_cutPow (hD : ∀ q ∈ D, 0 < q.2) (r b γ : ℝ) {σ H : ℝ} (hσ : 0 < σ) (hH : 0 < H) (hS : 0 < S₀) :
    (S₀ ≠ H → Tendsto (fun q : ℝ × ℝ => cutPow r b σ γ H (-1) q.1 q.2) (𝓝[D] (S₀, 0)) (𝓝 (S₀ ^ γ * side S₀ H))) ∧
    (S₀ < H → Tendsto (fun q : ℝ × ℝ => cutPow r b σ γ H 1 q.1 q.2) (𝓝[D] (S₀, 0)) (𝓝 0)) := by
  obtain ⟨d1, d2⟩ := corner_dist hD b γ hσ hH hS
  have key : ∀ (ε l : ℝ), Tendsto (fun q : ℝ × ℝ => Φ (ε * stdDist b σ γ H q.1 q.2)) (𝓝[D] (S₀, 0)) (𝓝 l) →
      Tendsto (fun q : ℝ × ℝ => cutPow r b σ γ H ε q.1 q.2) (𝓝[D] (S₀, 0)) (𝓝 (S₀ ^ γ * l)) := by
    intro ε l h
    have := (corner_exp (D := D) (S₀ := S₀) (powRate r b σ γ)).mul ((corner_rpow (D := D) hS γ).mul h)
    rw [one_mul] at this
    exact this
  refine ⟨fun hne => key _ _ ?_, fun h => ?_⟩
  · simp only [neg_one_mul]
    rcases lt_or_gt_of_ne hne with h | h
    · rw [side, if_pos h]
      exact tendsto_Φ_atTop.comp (tendsto_neg_atBot_atTop.comp (d1 h))
    · rw [side, if_neg (not_lt.2 (le_of_lt h)), if_neg hne]
      exact tendsto_Φ_atBot.comp (tendsto_neg_atTop_atBot.comp (d2 h))
  · have := key 1 0 (by simp only [one_mul]; exact tendsto_Φ_atBot.comp (d1 h))
    rwa [mul_zero] at this

theorem corner_cutPow_diff (hD : ∀ q ∈ D, 0 < q.1 ∧ 0 < q.2) (r b γ δ ε : ℝ) (hε : |ε| = 1) {σ H : ℝ} (hσ : 0 < σ)
    (hS : 0 < S₀) :
    Tendsto (fun q : ℝ × ℝ => cutPow r b σ γ H ε q.1 q.2 - S₀ ^ (γ - δ) * cutPow r b σ δ H ε q.1 q.2)
      (𝓝[D] (S₀, 0)) (𝓝 0) := by
  -- `e^{λT} S^γ (Φ_γ - Φ_δ) + (e^{λT} S^γ - S₀^{γ-δ} e^{λ'T} S^δ) Φ_δ`
  have hbig : Tendsto (fun q : ℝ × ℝ => |exp (powRate r b σ γ * q.2) * q.1 ^ γ| * (|γ - δ| * (σ * √q.2))
      + |exp (powRate r b σ γ * q.2) * q.1 ^ γ - S₀ ^ (γ - δ) * (exp (powRate r b σ δ * q.2) * q.1 ^ δ)|)
      (𝓝[D] (S₀, 0)) (𝓝 0) := by
    have e1 := (corner_exp (D := D) (S₀ := S₀) (powRate r b σ γ)).mul (corner_rpow (D := D) hS γ)
    have e2 := (corner_exp (D := D) (S₀ := S₀) (powRate r b σ δ)).mul (corner_rpow (D := D) hS δ)
    have e3 := ((corner_sqrt (D := D) (S₀ := S₀)).const_mul σ).const_mul |γ - δ|
    have := (e1.abs.mul e3).add ((e1.sub (e2.const_mul (S₀ ^ (γ - δ)))).abs)
    have hz : S₀ ^ (γ - δ) * S₀ ^ δ = S₀ ^ γ := by rw [← rpow_add hS]; congr 1; ring
    simpa [hz] using this
  refine squeeze_zero_norm' ?_ hbig
  filter_upwards [self_mem_nhdsWithin] with q hq
  obtain ⟨h1, h2⟩ := hD q hq
  have hs := sqrt_pos.2 h2
  have hdd : stdDist b σ γ H q.1 q.2 - stdDist b σ δ H q.1 q.2 = (γ - δ) * (σ * √q.2) := by
    have e : √q.2 ^ 2 = q.2 := sq_sqrt h2.le
    unfold stdDist
    rw [← sub_div, div_eq_iff (by positivity)]
    linear_combination -(γ - δ) * σ ^ 2 * e
  have hL : |Φ (ε * stdDist b σ γ H q.1 q.2) - Φ (ε * stdDist b σ δ H q.1 q.2)| ≤ |γ - δ| * (σ * √q.2) := by
    refine (Φ_abs_lipschitz _ _).trans ?_
    rw [← mul_sub, abs_mul, hε, one_mul, hdd, abs_mul, abs_of_pos (by positivity : 0 < σ * √q.2)]
  have hP : |Φ (ε * stdDist b σ δ H q.1 q.2)| ≤ 1 := by
    rw [abs_of_nonneg (Φ_nonneg _)]; exact (Φ_lt_one _).le
  rw [norm_eq_abs]
  unfold cutPow
  generalize Φ (ε * stdDist b σ γ H q.1 q.2) = P at *
  generalize Φ (ε * stdDist b σ δ H q.1 q.2) = Q at *
  rw [show exp (powRate r b σ γ * q.2) * (q.1 ^ γ * P) - S₀ ^ (γ - δ) * (exp (powRate r b σ δ * q.2) * (q.1 ^ δ * Q))
    = exp (powRate r b σ γ * q.2) * q.1 ^ γ * (P - Q) + (exp (powRate r b σ γ * q.2) * q.1 ^ γ
      - S₀ ^ (γ - δ) * (exp (powRate r b σ δ * q.2) * q.1 ^ δ)) * Q by ring]
  refine (abs_add_le _ _).trans (add_le_add ?_ ?_)
  · rw [abs_mul]; exact mul_le_mul_of_nonneg_left hL (abs_nonneg _)
  · rw [abs_mul]; exact mul_le_of_le_one_right (abs_nonneg _) hP

theorem corner_barPhi (hD : ∀ q ∈ D, 0 < q.1 ∧ 0 < q.2) (r b γ : ℝ) {σ H I : ℝ} (hσ : 0 < σ) (hH : 0 < H)
    (hS : 0 < S₀) (hI : 0 < I) :
    (S₀ ≠ H → S₀ * H < I ^ 2 → Tendsto (fun q : ℝ × ℝ => barPhi γ H I r b σ q.1 q.2) (𝓝[D] (S₀, 0)) (𝓝 (S₀ ^ γ * side S₀ H))) ∧
    (S₀ = I ∨ S₀ * H < I ^ 2 → Tendsto (fun q : ℝ × ℝ => barPhi γ H I r b σ q.1 q.2 - S₀ ^ γ * barPhi 0 H I r b σ q.1 q.2)
      (𝓝[D] (S₀, 0)) (𝓝 0)) := by
  have hD2 : ∀ q ∈ D, 0 < q.2 := fun q hq => (hD q hq).2
  have hH' : 0 < I ^ 2 / H := by positivity
  have heq : ∀ γ, ∀ᶠ q : ℝ × ℝ in 𝓝[D] (S₀, 0), barPhi γ H I r b σ q.1 q.2 = cutPow r b σ γ H (-1) q.1 q.2
      + -(I ^ (2 * b / σ ^ 2 + (2 * γ - 1))) * cutPow r b σ (1 - γ - 2 * b / σ ^ 2) (I ^ 2 / H) 1 q.1 q.2 := by
    intro γ
    filter_upwards [self_mem_nhdsWithin] with q hq
    exact barPhi_eq hH hI hσ (hD q hq).1 (hD q hq).2
  refine ⟨fun hne hlt => ?_, fun h => ?_⟩
  · have h := ((corner_cutPow hD2 r b γ hσ hH hS).1 hne).add
      (((corner_cutPow hD2 r b (1 - γ - 2 * b / σ ^ 2) hσ hH' hS).2 (by rwa [lt_div_iff₀ hH])).const_mul
        (-(I ^ (2 * b / σ ^ 2 + (2 * γ - 1)))))
    rw [mul_zero, add_zero] at h
    exact h.congr' ((heq γ).mono fun q hq => hq.symm)
  · have h1 := corner_cutPow_diff (H := H) hD r b γ 0 (-1) (by simp) hσ hS
    have h2 : Tendsto (fun q : ℝ × ℝ => I ^ (2 * b / σ ^ 2 + (2 * γ - 1)) * cutPow r b σ (1 - γ - 2 * b / σ ^ 2) (I ^ 2 / H) 1 q.1 q.2
        - S₀ ^ γ * (I ^ (2 * b / σ ^ 2 + (2 * 0 - 1)) * cutPow r b σ (1 - 0 - 2 * b / σ ^ 2) (I ^ 2 / H) 1 q.1 q.2))
        (𝓝[D] (S₀, 0)) (𝓝 0) := by
      rcases h with h | h
      · have := (corner_cutPow_diff (H := I ^ 2 / H) hD r b (1 - γ - 2 * b / σ ^ 2) (1 - 0 - 2 * b / σ ^ 2) 1
          (by simp) hσ hS).const_mul (I ^ (2 * b / σ ^ 2 + (2 * γ - 1)))
        rw [mul_zero] at this
        refine this.congr fun q => ?_
        have e : I ^ (2 * b / σ ^ 2 + (2 * γ - 1)) * S₀ ^ ((1 - γ - 2 * b / σ ^ 2) - (1 - 0 - 2 * b / σ ^ 2))
            = S₀ ^ γ * I ^ (2 * b / σ ^ 2 + (2 * 0 - 1)) := by
          rw [h, ← rpow_add hI, ← rpow_add hI]; congr 1; ring
        linear_combination -(cutPow r b σ (1 - 0 - 2 * b / σ ^ 2) (I ^ 2 / H) 1 q.1 q.2) * e
      · have a := fun γ => ((corner_cutPow hD2 r b γ hσ hH' hS).2 (by rwa [lt_div_iff₀ hH]))
        have := ((a (1 - γ - 2 * b / σ ^ 2)).const_mul (I ^ (2 * b / σ ^ 2 + (2 * γ - 1)))).sub
          (((a (1 - 0 - 2 * b / σ ^ 2)).const_mul (I ^ (2 * b / σ ^ 2 + (2 * 0 - 1)))).const_mul (S₀ ^ γ))
        simpa only [mul_zero, sub_zero] using this
    have h3 := h1.sub h2
    simp only [sub_zero] at h3
    refine h3.congr' ?_
    filter_upwards [heq γ, heq 0] with q e1 e2
    rw [e1, e2]
    simp only [sub_zero]
    ring

end corner

theorem barCall_boundary {β K I r b σ : ℝ} (hK : 0 < K) (hKI : K ≤ I) (hσ : 0 < σ) {S₀ T₀ : ℝ} (hS : 0 < S₀)
    (hSI : S₀ ≤ I) (hT : 0 ≤ T₀) (h : S₀ = I ∨ T₀ = 0) :
    Tendsto (fun q : ℝ × ℝ => barCall β K I r b σ q.1 q.2) (𝓝[Ioo 0 I ×ˢ Ioi 0] (S₀, T₀)) (𝓝 (max (S₀ - K) 0)) := by
  have hI : 0 < I := hK.trans_le hKI
  have hα : (I - K) * I ^ (-β) * I ^ β = I - K := by
    rw [mul_assoc, ← rpow_add hI, neg_add_cancel, rpow_zero, mul_one]
  rcases hT.lt_or_eq with hT0 | hT0
  · have hSI : S₀ = I := h.resolve_right hT0.ne'
    subst hSI
    have hv : barCall β K S₀ r b σ S₀ T₀ = max (S₀ - K) 0 := by
      simp only [barCall, barPhi_barrier T₀ hI, mul_zero, add_zero, hα]
      exact (max_eq_left (by linarith)).symm
    rw [← hv]
    have hc := (barCall_continuousOn β r b hK hI hσ).continuousAt
      ((isOpen_Ioi.prod isOpen_Ioi).mem_nhds (⟨hS, hT0⟩ : (S₀, T₀) ∈ Ioi (0:ℝ) ×ˢ Ioi (0:ℝ)))
    exact hc.tendsto.mono_left nhdsWithin_le_nhds
  · subst hT0
    set D : Set (ℝ × ℝ) := Ioo 0 I ×ˢ Ioi 0
    have hD : ∀ q ∈ D, 0 < q.1 ∧ 0 < q.2 := fun q hq => ⟨hq.1.1, hq.2⟩
    have A := fun γ => corner_barPhi (S₀ := S₀) hD r b γ hσ hI hS hI
    have B := fun γ => corner_barPhi (S₀ := S₀) hD r b γ hσ hK hS hI
    have hpow := (corner_rpow (D := D) hS β).const_mul ((I - K) * I ^ (-β))
    -- the blocks cut at the strike
    have hstrike : Tendsto (fun q : ℝ × ℝ => barPhi 1 K I r b σ q.1 q.2 - K * barPhi 0 K I r b σ q.1 q.2) (𝓝[D] (S₀, 0))
        (𝓝 ((S₀ - K) * side S₀ K)) := by
      by_cases hSK : S₀ = K
      · have := (B 1).2 (by rcases hSI.lt_or_eq with h | h
                            · right; nlinarith
                            · left; exact h)
        rw [rpow_one] at this
        simpa [hSK, sub_self] using this
      · have hlt : S₀ * K < I ^ 2 := by
          rcases hSI.lt_or_eq with h | h
          · nlinarith
          · have : K < I := lt_of_le_of_ne hKI (fun hh => hSK (by rw [h, hh]))
            nlinarith
        have := ((B 1).1 hSK hlt).sub (((B 0).1 hSK hlt).const_mul K)
        rw [rpow_one, rpow_zero, one_mul, ← sub_mul] at this
        exact this
    -- the blocks cut at the trigger
    have htrig : Tendsto (fun q : ℝ × ℝ => -((I - K) * I ^ (-β)) * barPhi β I I r b σ q.1 q.2 + barPhi 1 I I r b σ q.1 q.2
        - K * barPhi 0 I I r b σ q.1 q.2) (𝓝[D] (S₀, 0)) (𝓝 (-((I - K) * I ^ (-β)) * S₀ ^ β + (S₀ - K))) := by
      rcases hSI.lt_or_eq with h | h
      · have hlt : S₀ * I < I ^ 2 := by nlinarith
        have := ((((A β).1 h.ne hlt).const_mul (-((I - K) * I ^ (-β)))).add ((A 1).1 h.ne hlt)).sub
          (((A 0).1 h.ne hlt).const_mul K)
        rw [side, if_pos h, rpow_one, rpow_zero, mul_one, mul_one, mul_one, mul_one] at this
        rwa [← add_sub_assoc]
      · have := (((A β).2 (Or.inl h)).const_mul (-((I - K) * I ^ (-β)))).add ((A 1).2 (Or.inl h))
        rw [h] at this ⊢
        rw [neg_mul, hα, neg_add_cancel]
        rw [mul_zero, add_zero] at this
        refine this.congr fun q => ?_
        rw [rpow_one]
        linear_combination barPhi 0 I I r b σ q.1 q.2 * hα
    have hall := (hpow.add htrig).sub hstrike
    have hval : (I - K) * I ^ (-β) * S₀ ^ β + (-((I - K) * I ^ (-β)) * S₀ ^ β + (S₀ - K)) - (S₀ - K) * side S₀ K
        = max (S₀ - K) 0 := by
      unfold side
      split_ifs with h1 h2
      · rw [max_eq_right (by linarith)]; ring
      · rw [h2]; simp
      · rw [max_eq_left (by linarith)]; ring
    rw [hval] at hall
    refine hall.congr fun q => ?_
    unfold barCall
    ring

theorem barCall_isBarrierCall {β K I r b σ : ℝ} (hβ : 0 ≤ β) (hK : 0 < K) (hKI : K ≤ I) (hσ : 0 < σ)
    (hroot : powRate r b σ β = 0) : IsBarrierCall r b σ K I (barCall β K I r b σ) := by
  have hI : 0 < I := hK.trans_le hKI
  refine ⟨(barCall_continuousOn β r b hK hI hσ).mono fun q hq => ⟨hq.1.1, hq.2⟩, fun S T hS _ hT => ?_,
    fun S T h1 h2 h3 h4 => barCall_boundary hK hKI hσ h1 h2 h3 h4, fun T₁ => ?_⟩
  · have hpow : SolvesBS r b σ (fun s _ => s ^ β) S T := by
      have := solves_pow r b σ β hS T
      simpa [hroot] using this
    have A := fun γ => barPhi_solves (γ := γ) (r := r) (b := b) hI hI hσ hS hT
    have B := fun γ => barPhi_solves (γ := γ) (r := r) (b := b) hK hI hσ hS hT
    open SolvesBSLemmas in
    exact add (add (add (add (add (smul _ hpow) (smul _ (A β))) (A 1)) (smul _ (B 1))) (smul _ (A 0))) (smul _ (B 0))
  · obtain ⟨C1, h1⟩ := barPhi_bounded r b hβ hσ hI hI T₁
    obtain ⟨C2, h2⟩ := barPhi_bounded r b zero_le_one hσ hI hI T₁
    obtain ⟨C3, h3⟩ := barPhi_bounded r b zero_le_one hσ hK hI T₁
    obtain ⟨C4, h4⟩ := barPhi_bounded r b le_rfl hσ hI hI T₁
    obtain ⟨C5, h5⟩ := barPhi_bounded r b le_rfl hσ hK hI T₁
    have hα : 0 ≤ (I - K) * I ^ (-β) := mul_nonneg (by linarith) (rpow_pos_of_pos hI _).le
    refine ⟨(I - K) * I ^ (-β) * I ^ β + (I - K) * I ^ (-β) * C1 + C2 + C3 + K * C4 + K * C5, fun S T hS hSI hT hT1 => ?_⟩
    have a1 := mul_le_mul_of_nonneg_left (h1 S T hS hSI hT hT1) hα
    have a2 := h2 S T hS hSI hT hT1
    have a3 := h3 S T hS hSI hT hT1
    have a4 := mul_le_mul_of_nonneg_left (h4 S T hS hSI hT hT1) hK.le
    have a5 := mul_le_mul_of_nonneg_left (h5 S T hS hSI hT hT1) hK.le
    have a6 := mul_le_mul_of_nonneg_left (rpow_le_rpow hS.le hSI.le hβ) hα
    unfold barCall
    refine (abs_add_le _ _).trans (add_le_add ((abs_add_le _ _).trans (add_le_add ((abs_add_le _ _).trans (add_le_add
      ((abs_add_le _ _).trans (add_le_add ((abs_add_le _ _).trans (add_le_add ?_ ?_)) a2)) ?_)) ?_)) ?_)
    · rw [abs_of_nonneg (mul_nonneg hα (rpow_pos_of_pos hS _).le)]; exact a6
    · rw [abs_mul, abs_neg, abs_of_nonneg hα]; exact a1
    · rw [abs_mul, abs_neg, abs_one, one_mul]; exact a3
    · rw [abs_mul, abs_neg, abs_of_pos hK]; exact a4
    · rw [abs_mul, abs_of_pos hK]; exact a5

end Verif
