import Verif.Lemmas.BSUnique

/-!
Put–call transformation of the Black–Scholes equation: inverting the spot exchanges the two rates, and turns the
call exercised at a level into the put exercised at the inverse level.
-/
namespace Verif
open Real Spec Filter Topology Set

theorem SolvesBSLemmas.invert {r b σ a c x T : ℝ} {P : ℝ → ℝ → ℝ} (hx : 0 < x)
    (h : SolvesBS r b σ P (a / x) T) : SolvesBS (r - b) (-b) σ (fun x T => c * x * P (a / x) T) x T := by
  obtain ⟨P1, P2, P3, h1, h2, h3, h4⟩ := h
  have hdiv : ∀ u : ℝ, 0 < u → HasDerivAt (fun u : ℝ => a / u) (-a / u ^ 2) u := by
    intro u hu
    have := (hasDerivAt_const u a).div (hasDerivAt_id u) hu.ne'
    refine HasDerivAt.congr_deriv this ?_
    simp
  have hlin : ∀ u : ℝ, HasDerivAt (fun u : ℝ => c * u) c u := fun u => by
    simpa using (hasDerivAt_id u).const_mul c
  have hcont : Tendsto (fun u : ℝ => a / u) (𝓝 x) (𝓝 (a / x)) := (hdiv x hx).continuousAt.tendsto
  refine ⟨fun u => c * P (a / u) T + c * u * (P1 (a / u) * (-a / u ^ 2)), c * (a ^ 2 / x ^ 3) * P2, c * x * P3, ?_, ?_, ?_, ?_⟩
  · filter_upwards [hcont.eventually h1, lt_mem_nhds hx] with u hu hu0
    exact (hlin u).mul (hu.comp u (hdiv u hu0))
  · have e0 : HasDerivAt (fun u => P (a / u) T) (P1 (a / x) * (-a / x ^ 2)) x := h1.self_of_nhds.comp x (hdiv x hx)
    have e1 : HasDerivAt (fun u => P1 (a / u)) (P2 * (-a / x ^ 2)) x := h2.comp x (hdiv x hx)
    have e2 : HasDerivAt (fun u : ℝ => -a / u ^ 2) (2 * a / x ^ 3) x := by
      have := (hasDerivAt_const x (-a)).div (hasDerivAt_pow 2 x) (by positivity)
      refine HasDerivAt.congr_deriv this ?_
      simp
      field_simp
    have := (e0.const_mul c).add ((hlin x).mul (e1.mul e2))
    refine HasDerivAt.congr_deriv this ?_
    simp only [Pi.mul_apply]
    field_simp
    ring
  · exact h3.const_mul (c * x)
  · rw [h4]
    field_simp
    ring

theorem putToCall {r b σ S K I : ℝ} {P : ℝ → ℝ → ℝ} (hS : 0 < S) (hK : 0 < K) (hI : 0 < I)
    (hP : IsBarrierPut r b σ K (S * K / I) P) :
    IsBarrierCall (r - b) (-b) σ S I (fun x T => 1 / K * x * P (S * K / x) T) := by
  have ha : 0 < S * K := by positivity
  have hmap : ∀ x, 0 < x → x < I → S * K / I < S * K / x := fun x h1 h2 => div_lt_div_of_pos_left ha h1 h2
  refine ⟨?_, fun x T h1 h2 h3 => SolvesBSLemmas.invert h1 (hP.equation _ T (hmap x h1 h2) h3), ?_, ?_⟩
  · refine (by fun_prop : ContinuousOn (fun q : ℝ × ℝ => 1 / K * q.1) _).mul
      (hP.continuous.comp (f := fun q : ℝ × ℝ => (S * K / q.1, q.2)) ?_ ?_)
    · exact (continuousOn_const.div continuousOn_fst fun q hq => (show (0:ℝ) < q.1 from hq.1.1).ne').prodMk continuousOn_snd
    · exact fun q hq => ⟨hmap q.1 hq.1.1 hq.1.2, hq.2⟩
  · intro x T h1 h2 h3 h4
    have hb := hP.boundary (S * K / x) T (div_le_div_of_nonneg_left ha.le h1 h2) h3
      (h4.imp (fun h => by rw [h]) id)
    have hc : Tendsto (fun q : ℝ × ℝ => (S * K / q.1, q.2)) (𝓝[Ioo 0 I ×ˢ Ioi 0] (x, T)) (𝓝[Ioi (S * K / I) ×ˢ Ioi 0] (S * K / x, T)) := by
      refine tendsto_nhdsWithin_iff.2 ⟨?_, ?_⟩
      · have : ContinuousAt (fun q : ℝ × ℝ => (S * K / q.1, q.2)) (x, T) :=
          (continuousAt_const.div continuousAt_fst h1.ne').prodMk continuousAt_snd
        exact this.tendsto.mono_left nhdsWithin_le_nhds
      · filter_upwards [self_mem_nhdsWithin] with q hq using ⟨hmap q.1 hq.1.1 hq.1.2, hq.2⟩
    have hl : Tendsto (fun q : ℝ × ℝ => 1 / K * q.1) (𝓝[Ioo 0 I ×ˢ Ioi 0] (x, T)) (𝓝 (1 / K * x)) :=
      ((by fun_prop : Continuous fun q : ℝ × ℝ => 1 / K * q.1).tendsto (x, T)).mono_left nhdsWithin_le_nhds
    have := hl.mul (hb.comp hc)
    rw [mul_max_of_nonneg _ _ (by positivity), mul_zero] at this
    have e : 1 / K * x * (K - S * K / x) = x - S := by field_simp
    rw [e] at this
    exact this
  · intro T₁
    obtain ⟨C, hC⟩ := hP.growth T₁
    refine ⟨|C| * S, fun x T h1 h2 h3 h4 => ?_⟩
    have h := hC (S * K / x) T (hmap x h1 h2) h3 h4
    rw [abs_mul, abs_of_pos (by positivity : 0 < 1 / K * x)]
    have h5 := mul_le_mul_of_nonneg_left h (by positivity : 0 ≤ 1 / K * x)
    have e : 1 / K * x * (C * (S * K / x)) = C * S := by field_simp
    rw [e] at h5
    exact h5.trans (mul_le_mul_of_nonneg_right (le_abs_self C) hS.le)

theorem callToPut {r b σ S K I : ℝ} {U : ℝ → ℝ → ℝ} (hS : 0 < S) (hK : 0 < K) (hI : 0 < I)
    (hU : IsBarrierCall (r - b) (-b) σ S I U) :
    IsBarrierPut r b σ K (S * K / I) (fun s T => 1 / S * s * U (S * K / s) T) := by
  have ha : 0 < S * K := by positivity
  have hL : 0 < S * K / I := by positivity
  have hmap : ∀ s, S * K / I < s → 0 < S * K / s ∧ S * K / s < I := fun s h =>
    ⟨div_pos ha (hL.trans h), by rw [div_lt_iff₀ (hL.trans h)]; rw [div_lt_iff₀ hI] at h; linarith⟩
  refine ⟨?_, fun s T h1 h3 => ?_, ?_, ?_⟩
  · refine (by fun_prop : ContinuousOn (fun q : ℝ × ℝ => 1 / S * q.1) _).mul
      (hU.continuous.comp (f := fun q : ℝ × ℝ => (S * K / q.1, q.2)) ?_ ?_)
    · exact (continuousOn_const.div continuousOn_fst fun q hq => (hL.trans (show _ < q.1 from hq.1)).ne').prodMk continuousOn_snd
    · exact fun q hq => ⟨hmap q.1 hq.1, hq.2⟩
  · have := SolvesBSLemmas.invert (c := 1 / S) (hL.trans h1) (hU.equation _ T (hmap s h1).1 (hmap s h1).2 h3)
    rwa [show r - b - -b = r by ring, neg_neg] at this
  · intro x T h1 h3 h4
    have hx : 0 < x := hL.trans_le h1
    have hb := hU.boundary (S * K / x) T (by positivity) (by rw [div_le_iff₀ hx]; rw [div_le_iff₀ hI] at h1; linarith) h3
      (h4.imp (fun h => by rw [h]; field_simp) id)
    have hc : Tendsto (fun q : ℝ × ℝ => (S * K / q.1, q.2)) (𝓝[Ioi (S * K / I) ×ˢ Ioi 0] (x, T)) (𝓝[Ioo 0 I ×ˢ Ioi 0] (S * K / x, T)) := by
      refine tendsto_nhdsWithin_iff.2 ⟨?_, ?_⟩
      · have : ContinuousAt (fun q : ℝ × ℝ => (S * K / q.1, q.2)) (x, T) :=
          (continuousAt_const.div continuousAt_fst hx.ne').prodMk continuousAt_snd
        exact this.tendsto.mono_left nhdsWithin_le_nhds
      · filter_upwards [self_mem_nhdsWithin] with q hq using ⟨hmap q.1 hq.1, hq.2⟩
    have hl : Tendsto (fun q : ℝ × ℝ => 1 / S * q.1) (𝓝[Ioi (S * K / I) ×ˢ Ioi 0] (x, T)) (𝓝 (1 / S * x)) :=
      ((by fun_prop : Continuous fun q : ℝ × ℝ => 1 / S * q.1).tendsto (x, T)).mono_left nhdsWithin_le_nhds
    have := hl.mul (hb.comp hc)
    rw [mul_max_of_nonneg _ _ (by positivity), mul_zero] at this
    have e : 1 / S * x * (S * K / x - S) = K - x := by field_simp
    rw [e] at this
    exact this
  · intro T₁
    obtain ⟨C, hC⟩ := hU.bounded T₁
    refine ⟨1 / S * C, fun s T h1 h3 h4 => ?_⟩
    have hs : 0 < s := hL.trans h1
    have h := hC (S * K / s) T (hmap s h1).1 (hmap s h1).2 h3 h4
    rw [abs_mul, abs_of_pos (by positivity : 0 < 1 / S * s)]
    have h5 := mul_le_mul_of_nonneg_left h (by positivity : 0 ≤ 1 / S * s)
    linarith

end Verif
