import Verif.Props.RGWAccuracy

/-!
C93: what `RollGeskeWhaleyOption.is_call_optimal` says.
-/
namespace Verif.Props
open Verif Verif.Spec Real MeasureTheory ProbabilityTheory Filter Topology Set

/-- Far in the money the put is worthless. -/
theorem tendsto_bsPut {K τ r σ : ℝ} (hK : 0 < K) (hτ : 0 < τ) (hσ : 0 < σ) :
    Tendsto (fun s => bsPut s K τ r r σ) atTop (𝓝 0) := by
  have hs : 0 < σ * √τ := by positivity
  have h1 : Tendsto (fun s => bsA s K τ r σ) atTop atBot := by
    unfold bsA
    refine tendsto_neg_atTop_atBot.comp (Tendsto.atTop_div_const hs ?_)
    exact tendsto_atTop_add_const_right _ _ (tendsto_log_atTop.comp (tendsto_id.atTop_div_const hK))
  have h2 : Tendsto (fun s => K * exp (-r * τ) * Φ (bsA s K τ r σ)) atTop (𝓝 0) := by
    simpa using (tendsto_Φ_atBot.comp h1).const_mul (K * exp (-r * τ))
  refine squeeze_zero' ?_ ?_ h2
  · exact Eventually.of_forall fun s => mul_nonneg (exp_pos _).le (integral_nonneg fun z => le_max_right _ _)
  · filter_upwards [eventually_gt_atTop 0] with s hs'
    rw [bsPut_closed hs' hK hτ hσ]
    have : 0 ≤ s * exp ((r - r) * τ) * Φ (-(σ * √τ - bsA s K τ r σ)) :=
      mul_nonneg (by positivity) (Φ_nonneg _)
    linarith

/-- A dividend above the interest on the strike makes exercising better than keeping the option at every high enough
price. -/
theorem exercise_eventually {K τ r D σ : ℝ} (hK : 0 < K) (hτ : 0 < τ) (hσ : 0 < σ) (hD : K * (1 - exp (-r * τ)) < D) :
    ∀ᶠ s in atTop, bsCall s K τ r r σ < s + D - K := by
  filter_upwards [(tendsto_bsPut (r := r) hK hτ hσ).eventually_lt_const (sub_pos.2 hD)] with s hs
  have := bsCall_sub_bsPut (S := s) (K := K) (r := r) (b := r) (σ := σ) hτ.le
  rw [sub_self, zero_mul, exp_zero, mul_one] at this
  linarith

/-- **C93, the meaning of the answer.** `is_call_optimal()` is `True` exactly when the dividend can make it worth
exercising on the ex-dividend date: there is a price at which exercising beats keeping, and the right to exercise then
adds value to the option whatever the price of the stock today.  (Partial: the docstring says that it is *currently*
optimal to exercise; see `C93_never_now`.) -/
theorem C93_meaning_partial (S K t td r D σ : ℝ) (hK : 0 < K) (h0 : 0 < td) (h1 : td < t) (hσ : 0 < σ) :
    (RGW.isCallOptimal ⟨S, K, t, td, r, D, some σ⟩ = true ↔
      ∃ s > 0, bsCall s K (t - td) r r σ < s + D - K) ∧
    ∀ x > 0, (RGW.isCallOptimal ⟨S, K, t, td, r, D, some σ⟩ = true ↔
      bsCall x K t r r σ < dividendCall x K t td r D σ) := by
  have hτ : 0 < t - td := sub_pos.2 h1
  have hf := (C36_european ⟨S, K, t, td, r, D, some σ⟩).1
  simp only at hf
  have ht : RGW.isCallOptimal ⟨S, K, t, td, r, D, some σ⟩ = true ↔ K * (1 - exp (-r * (t - td))) < D := by
    rw [← not_le, ← hf, Bool.not_eq_false]
  refine ⟨ht.trans ⟨fun h => ?_, fun ⟨s, hs, h⟩ => ?_⟩, fun x hx => ht.trans ⟨fun h => ?_, fun h => ?_⟩⟩
  · obtain ⟨s, h, hs⟩ := ((exercise_eventually hK hτ hσ h).and (eventually_gt_atTop 0)).exists
    exact ⟨s, hs, h⟩
  · have := bsCall_ge (S := s) (K := K) (r := r) (b := r) (σ := σ) hτ.le
    rw [sub_self, zero_mul, exp_zero, mul_one] at this
    linarith
  · obtain ⟨s₀, hs₀⟩ := eventually_atTop.1 (exercise_eventually (σ := σ) hK hτ hσ h)
    have hi := integrable_exDividend (r := r) (D := D) (σ := σ) hx hK.le h1.le
    have hc := integrable_bsCall_terminal (r := r) (σ := σ) hx hK.le h1.le
    have hlt : ∫ z, bsCall (terminal x td r σ z) K (t - td) r r σ ∂gaussianReal 0 1
        < ∫ z, exDividendValue K (t - td) r D σ (terminal x td r σ z) ∂gaussianReal 0 1 := by
      rw [← sub_pos, ← integral_sub hi hc]
      refine (integral_pos_iff_support_of_nonneg (fun z => sub_nonneg.2 ?_) (hi.sub hc)).2 ?_
      · exact le_max_right _ _
      set s₁ := max s₀ 1
      have hs₁ : 0 < s₁ := lt_of_lt_of_le one_pos (le_max_right _ _)
      have hsub : Ioi (bsA x s₁ td r σ) ⊆ Function.support
          (fun z => exDividendValue K (t - td) r D σ (terminal x td r σ z)
            - bsCall (terminal x td r σ z) K (t - td) r r σ) := by
        intro z hz
        have h2 := (terminal_gt_iff hx hs₁ h0 hσ z).2 hz
        have h3 := hs₀ _ ((le_max_left s₀ 1).trans h2.le)
        have : bsCall (terminal x td r σ z) K (t - td) r r σ
            < exDividendValue K (t - td) r D σ (terminal x td r σ z) := lt_of_lt_of_le h3 (le_max_left _ _)
        exact (sub_pos.2 this).ne'
      refine lt_of_lt_of_le ?_ (measure_mono hsub)
      have h4 : (gaussianReal 0 1).real (Ioi (bsA x s₁ td r σ)) = 1 - Φ (bsA x s₁ td r σ) := by
        rw [← compl_Iic, measureReal_compl measurableSet_Iic, probReal_univ]
        rfl
      have h5 : 0 < (gaussianReal 0 1).real (Ioi (bsA x s₁ td r σ)) := by
        rw [h4]; linarith [Φ_lt_one (bsA x s₁ td r σ)]
      exact (ENNReal.toReal_pos_iff.1 h5).1
    have := mul_lt_mul_of_pos_left hlt (exp_pos (-r * td))
    rwa [bsCall_tower h0.le h1.le] at this
  · by_contra hc
    rw [dividendCall_european hx h0.le h1.le (not_lt.1 hc)] at h
    exact lt_irrefl _ h

/-- **C93 is false as documented.** At a positive rate it is never optimal to exercise now: keeping the option is worth
more than the exercise value, for every option and whatever `is_call_optimal()` says. -/
theorem C93_never_now (S K t td r D σ : ℝ) (hS : 0 < S - D * exp (-r * td)) (hK : 0 < K) (h0 : 0 < td) (h1 : td ≤ t)
    (hr : 0 < r) : S - K < dividendCall (S - D * exp (-r * td)) K t td r D σ := by
  have h := (C75_spec_bounds (r := r) (D := D) (σ := σ) hS hK.le h0.le h1).2
  have : exp (-r * td) < 1 := by rw [exp_lt_one_iff]; nlinarith
  nlinarith

/-- **C93 fails** at the library's own example: the answer is `True`, the option is out of the money and exercising
throws away its value. -/
theorem C93_fails : RGW.isCallOptimal ⟨80, 82, 1 / 3, 1 / 4, 0.06, 4, some 0.3⟩ = true ∧
    (80 : ℝ) - 82 < dividendCall (80 - 4 * exp (-0.06 * (1 / 4))) 82 (1 / 3) (1 / 4) 0.06 4 0.3 ∧
    (80 : ℝ) - 82 < 0 := by
  refine ⟨C35_example, C93_never_now 80 82 _ _ _ 4 _ ?_ (by norm_num) (by norm_num) (by norm_num) (by norm_num),
    by norm_num⟩
  have : exp (-0.06 * (1 / 4) : ℝ) ≤ 1 := exp_le_one_iff.2 (by norm_num)
  linarith

/-- Non-vacuous: both answers occur at ordinary parameters. -/
theorem C93_example : RGW.isCallOptimal ⟨80, 82, 1 / 3, 1 / 4, 0.06, 4, some 0.3⟩ = true ∧
    RGW.isCallOptimal ⟨100, 90, 1, 1 / 2, 0.1, 0, some 0.3⟩ = false := ⟨C35_example, C36_example⟩

end Verif.Props
