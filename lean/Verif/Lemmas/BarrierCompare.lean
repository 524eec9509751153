import Verif.Lemmas.BSUnique

/-!
Comparison with the call exercised at a level: subsolutions below it at the level and at expiry are below it, solutions
above it there are above it.
-/
namespace Verif
open Real Spec Filter Topology Set

theorem SubBS.add {r b σ S T : ℝ} {U V : ℝ → ℝ → ℝ} (hU : SubBS r b σ U S T) (hV : SubBS r b σ V S T) :
    SubBS r b σ (fun s t => U s t + V s t) S T := by
  obtain ⟨V1, V2, V3, a1, a2, a3, a4⟩ := hU
  obtain ⟨W1, W2, W3, b1, b2, b3, b4⟩ := hV
  refine ⟨fun s => V1 s + W1 s, V2 + W2, V3 + W3, ?_, a2.add b2, a3.add b3, ?_⟩
  · filter_upwards [a1, b1] with s h1 h2 using h1.add h2
  · linarith

/-- A subsolution that is at most the exercise value at the level and at expiry is at most the value. -/
theorem barrierCall_ge_sub {r b σ K I : ℝ} {V U : ℝ → ℝ → ℝ} (hV : IsBarrierCall r b σ K I V) {S T : ℝ}
    (hc : ContinuousOn (fun q : ℝ × ℝ => U q.1 q.2) (Ioo 0 I ×ˢ Ioi 0))
    (hU : ∀ s t, 0 < s → s < I → 0 < t → SubBS r b σ U s t)
    (hbd : ∀ s t, 0 < s → s ≤ I → 0 ≤ t → t ≤ T → s = I ∨ t = 0 →
      ∀ ε > 0, ∀ᶠ q : ℝ × ℝ in 𝓝[Ioo 0 I ×ˢ Ioi 0] (s, t), U q.1 q.2 < max (s - K) 0 + ε)
    (hC : ∀ T₁, ∃ C, ∀ s t, 0 < s → s < I → 0 < t → t ≤ T₁ → U s t ≤ C)
    (hS : 0 < S) (hSI : S < I) (hT : 0 < T) : U S T ≤ V S T := by
  have h := bs_max_principle_upto (r := r) (b := b) (σ := σ) (I := I) (S := S) (T := T)
    (W := fun s t => U s t + -1 * V s t) (hc.add (continuousOn_const.mul hV.continuous))
    (fun s t h1 h2 h3 => (hU s t h1 h2 h3).add (SolvesBSLemmas.smul (-1) (hV.equation s t h1 h2 h3)).sub)
    (fun s t h1 h2 h3 h4 h5 ε hε => by
      have hv := (hV.boundary s t h1 h2 h3 h5).eventually_const_lt (show max (s - K) 0 - ε / 2 < max (s - K) 0 by linarith)
      filter_upwards [hv, hbd s t h1 h2 h3 h4 h5 (ε / 2) (half_pos hε)] with q a1 a2
      linarith)
    (fun T₁ => by
      obtain ⟨C, hC'⟩ := hV.bounded T₁
      obtain ⟨D, hD⟩ := hC T₁
      refine ⟨D + C, fun s t h1 h2 h3 h4 => ?_⟩
      have a := (abs_le.1 (hC' s t h1 h2 h3 h4)).1
      have a2 := hD s t h1 h2 h3 h4
      linarith) hS hSI hT
  linarith

/-- A solution that is at least the exercise value at the level and at expiry is at least the value. -/
theorem barrierCall_le_sol {r b σ K I : ℝ} {V U : ℝ → ℝ → ℝ} (hV : IsBarrierCall r b σ K I V) {S T : ℝ}
    (hc : ContinuousOn (fun q : ℝ × ℝ => U q.1 q.2) (Ioi 0 ×ˢ univ))
    (hU : ∀ s t, 0 < s → s < I → 0 < t → SolvesBS r b σ U s t)
    (h0 : ∀ s, 0 < s → s ≤ I → max (s - K) 0 ≤ U s 0) (hI : ∀ t, 0 ≤ t → t ≤ T → max (I - K) 0 ≤ U I t)
    (hC : ∀ T₁, ∃ C, ∀ s t, 0 < s → s < I → 0 < t → t ≤ T₁ → C ≤ U s t)
    (hS : 0 < S) (hSI : S < I) (hT : 0 < T) : V S T ≤ U S T := by
  have hsub : Ioo 0 I ×ˢ Ioi (0:ℝ) ⊆ Ioi 0 ×ˢ univ := fun q hq => ⟨hq.1.1, trivial⟩
  have h := bs_max_principle_upto (r := r) (b := b) (σ := σ) (I := I) (S := S) (T := T)
    (W := fun s t => V s t + -1 * U s t) (hV.continuous.add (continuousOn_const.mul (hc.mono hsub)))
    (fun s t h1 h2 h3 => (SolvesBSLemmas.add (hV.equation s t h1 h2 h3) (SolvesBSLemmas.smul (-1) (hU s t h1 h2 h3))).sub)
    (fun s t h1 h2 h3 h4 h5 ε hε => by
      have hv := (hV.boundary s t h1 h2 h3 h5).eventually_lt_const (show max (s - K) 0 < max (s - K) 0 + ε / 2 by linarith)
      have hu : Tendsto (fun q : ℝ × ℝ => U q.1 q.2) (𝓝[Ioo 0 I ×ˢ Ioi 0] (s, t)) (𝓝 (U s t)) :=
        (hc (s, t) ⟨h1, trivial⟩).mono hsub
      have hge : max (s - K) 0 ≤ U s t := by
        rcases h5 with rfl | rfl
        · exact hI t h3 h4
        · exact h0 s h1 h2
      have hu' := hu.eventually_const_lt (show max (s - K) 0 - ε / 2 < U s t by linarith)
      filter_upwards [hv, hu'] with q a1 a2
      linarith)
    (fun T₁ => by
      obtain ⟨C, hC'⟩ := hV.bounded T₁
      obtain ⟨D, hD⟩ := hC T₁
      refine ⟨C - D, fun s t h1 h2 h3 h4 => ?_⟩
      have a := (abs_le.1 (hC' s t h1 h2 h3 h4)).2
      have a2 := hD s t h1 h2 h3 h4
      linarith) hS hSI hT
  linarith

/-- Sums of powers of the spot that solve the equation. -/
noncomputable def powSol (r b σ γ : ℝ) (s t : ℝ) : ℝ := exp (powRate r b σ γ * t) * s ^ γ

theorem powSol_continuousOn (r b σ γ : ℝ) : ContinuousOn (fun q : ℝ × ℝ => powSol r b σ γ q.1 q.2) (Ioi 0 ×ˢ univ) := by
  unfold powSol
  have h1 : ContinuousOn (fun q : ℝ × ℝ => q.1 ^ γ) (Ioi 0 ×ˢ univ) :=
    continuousOn_fst.rpow_const fun q hq => Or.inl (show 0 < q.1 from hq.1).ne'
  have h2 : ContinuousOn (fun q : ℝ × ℝ => exp (powRate r b σ γ * q.2)) (Ioi 0 ×ˢ univ) := by fun_prop
  exact h2.mul h1

theorem powSol_pos {r b σ γ s t : ℝ} (hs : 0 < s) : 0 < powSol r b σ γ s t := mul_pos (exp_pos _) (rpow_pos_of_pos hs _)

theorem powSol_solves (r b σ γ : ℝ) {S : ℝ} (hS : 0 < S) (T : ℝ) : SolvesBS r b σ (powSol r b σ γ) S T :=
  solves_pow r b σ γ hS T

/-- An upper bound on the call exercised at the level `I`: the forward, a quadratic that covers what exercise at the level
adds to it, and a power that covers the put. -/
theorem barrierCall_le_quadratic {r b σ K I A c : ℝ} (hK : 0 < K) (hKI : K ≤ I) (hA : 0 ≤ A)
    {V : ℝ → ℝ → ℝ} (hV : IsBarrierCall r b σ K I V) {S T : ℝ}
    (hI : ∀ t, 0 ≤ t → t ≤ T → I * (1 - exp ((b - r) * t)) - K * (1 - exp (-r * t))
      ≤ A * (exp (-r * t) * ((I * exp (b * t) - c) ^ 2 + (I * exp (b * t)) ^ 2 * (exp (σ ^ 2 * t) - 1))))
    (hS : 0 < S) (hSI : S < I) (hT : 0 < T) :
    V S T ≤ S * exp ((b - r) * T) - K * exp (-r * T)
      + A * (exp (-r * T) * ((S * exp (b * T) - c) ^ 2 + (S * exp (b * T)) ^ 2 * (exp (σ ^ 2 * T) - 1)))
      + K ^ 9 / 4 * (exp ((-r - 8 * b + 36 * σ ^ 2) * T) / S ^ 8) := by
  have e1 : ∀ s t, powSol r b σ 1 s t = s * exp ((b - r) * t) := fun s t => by
    unfold powSol powRate; rw [rpow_one, mul_comm]; congr 2; ring
  have e0 : ∀ s t, powSol r b σ 0 s t = exp (-r * t) := fun s t => by
    unfold powSol powRate; rw [rpow_zero, mul_one]; congr 2; ring
  have e2 : ∀ s t, powSol r b σ 2 s t = exp (-r * t) * (s * exp (b * t)) ^ 2 * exp (σ ^ 2 * t) := fun s t => by
    unfold powSol powRate
    rw [rpow_two, mul_pow, ← exp_nat_mul]
    rw [show exp (-r * t) * (s ^ 2 * exp (((2:ℕ):ℝ) * (b * t))) * exp (σ ^ 2 * t)
      = (exp (-r * t) * exp (((2:ℕ):ℝ) * (b * t)) * exp (σ ^ 2 * t)) * s ^ 2 by ring, ← exp_add, ← exp_add]
    congr 2; push_cast; ring
  have e8 : ∀ s t, 0 < s → powSol r b σ (-8) s t = exp ((-r - 8 * b + 36 * σ ^ 2) * t) / s ^ 8 := fun s t hs => by
    unfold powSol powRate
    rw [rpow_neg hs.le, div_eq_mul_inv, show (8:ℝ) = ((8:ℕ):ℝ) by norm_num, rpow_natCast]
    congr 2; push_cast; ring
  have eEF : ∀ t, exp ((b - r) * t) = exp (-r * t) * exp (b * t) := fun t => by rw [← exp_add]; congr 1; ring
  set U : ℝ → ℝ → ℝ := fun s t => (((powSol r b σ 1 s t + -K * powSol r b σ 0 s t) + A * powSol r b σ 2 s t)
    + (-2 * A * c) * powSol r b σ 1 s t) + ((A * c ^ 2) * powSol r b σ 0 s t + K ^ 9 / 4 * powSol r b σ (-8) s t) with hUd
  have hUe : ∀ s t, 0 < s → U s t = s * exp ((b - r) * t) - K * exp (-r * t)
      + A * (exp (-r * t) * ((s * exp (b * t) - c) ^ 2 + (s * exp (b * t)) ^ 2 * (exp (σ ^ 2 * t) - 1)))
      + K ^ 9 / 4 * (exp ((-r - 8 * b + 36 * σ ^ 2) * t) / s ^ 8) := fun s t hs => by
    simp only [hUd]
    rw [e1, e0, e2, e8 s t hs, eEF]
    ring
  have hI0 : 0 < I := hK.trans_le hKI
  have hpos : ∀ s t, 0 < s → 0 ≤ K ^ 9 / 4 * (exp ((-r - 8 * b + 36 * σ ^ 2) * t) / s ^ 8) := fun s t hs => by positivity
  have hquad : ∀ s t, 0 < s → 0 ≤ t →
      0 ≤ A * (exp (-r * t) * ((s * exp (b * t) - c) ^ 2 + (s * exp (b * t)) ^ 2 * (exp (σ ^ 2 * t) - 1))) := fun s t hs ht => by
    have : 1 ≤ exp (σ ^ 2 * t) := one_le_exp (by positivity)
    have : 0 ≤ exp (σ ^ 2 * t) - 1 := by linarith
    positivity
  rw [← hUe S T hS]
  refine barrierCall_le_sol (U := U) hV ?_ ?_ ?_ ?_ ?_ hS hSI hT
  · have c0 := powSol_continuousOn r b σ 0
    have c1 := powSol_continuousOn r b σ 1
    have c2 := powSol_continuousOn r b σ 2
    have c8 := powSol_continuousOn r b σ (-8)
    exact (((c1.add (continuousOn_const.mul c0)).add (continuousOn_const.mul c2)).add (continuousOn_const.mul c1)).add
      ((continuousOn_const.mul c0).add (continuousOn_const.mul c8))
  · intro s t hs _ _
    have c0 := powSol_solves r b σ 0 hs t
    have c1 := powSol_solves r b σ 1 hs t
    have c2 := powSol_solves r b σ 2 hs t
    have c8 := powSol_solves r b σ (-8) hs t
    open SolvesBSLemmas in
    exact add (add (add (add c1 (smul _ c0)) (smul _ c2)) (smul _ c1)) (add (smul _ c0) (smul _ c8))
  · intro s hs hsI
    rw [hUe s 0 hs]
    have h1 := hpos s 0 hs
    have h2 := hquad s 0 hs le_rfl
    simp only [mul_zero, exp_zero, mul_one] at h1 h2 ⊢
    refine max_le (by linarith) ?_
    rcases le_total K s with h | h
    · linarith
    · have h3 : K - s ≤ K ^ 9 / 4 * (1 / s ^ 8) := by
        rw [mul_one_div, le_div_iff₀ (by positivity)]
        have a1 : s ^ 7 ≤ K ^ 7 := pow_le_pow_left₀ hs.le h 7
        have a2 : (K - s) * s ≤ K ^ 2 / 4 := by nlinarith [sq_nonneg (K - 2 * s)]
        have a3 : 0 ≤ (K - s) * s := mul_nonneg (by linarith) hs.le
        calc (K - s) * s ^ 8 = (K - s) * s * s ^ 7 := by ring
          _ ≤ K ^ 2 / 4 * K ^ 7 := mul_le_mul a2 a1 (by positivity) (by positivity)
          _ = K ^ 9 / 4 := by ring
      linarith
  · intro t h1 h2
    rw [hUe I t hI0, max_eq_left (by linarith)]
    have h3 := hI t h1 h2
    have h4 := hpos I t hI0
    linarith
  · intro T₁
    refine ⟨-K * exp (|r| * |T₁|), fun s t hs _ h3 h4 => ?_⟩
    rw [hUe s t hs]
    have a1 := hquad s t hs h3.le
    have a2 := hpos s t hs
    have a3 : 0 < s * exp ((b - r) * t) := by positivity
    have a4 : exp (-r * t) ≤ exp (|r| * |T₁|) := by
      refine exp_le_exp.2 ?_
      have : -r * t ≤ |r| * t := mul_le_mul_of_nonneg_right (neg_le_abs r) h3.le
      have : |r| * t ≤ |r| * |T₁| := mul_le_mul_of_nonneg_left (h4.trans (le_abs_self _)) (abs_nonneg _)
      linarith
    have a5 := mul_le_mul_of_nonneg_left a4 hK.le
    linarith

/-- The exercise value falls short of the value by at most the interest lost while the spot is below the level. -/
theorem barrierCall_ge_exercise {r b σ K I : ℝ} (hr : 0 ≤ r) (hb : b ≤ r) {V : ℝ → ℝ → ℝ}
    (hV : IsBarrierCall r b σ K I V) {S T : ℝ} (hS : 0 < S) (hSI : S < I) (hT : 0 < T) :
    S - K - max ((r - b) * I - r * K) 0 * T ≤ V S T := by
  set M := max ((r - b) * I - r * K) 0 with hM
  have hM0 : 0 ≤ M := le_max_right _ _
  refine barrierCall_ge_sub (U := fun s t => s - K - M * t) hV (by fun_prop) ?_ ?_ ?_ hS hSI hT
  · intro s t h1 h2 h3
    refine ⟨fun _ => 1, 0, -M, Eventually.of_forall fun x => ?_, hasDerivAt_const s 1, ?_, ?_⟩
    · exact ((hasDerivAt_id x).sub_const K).sub_const _
    · simpa using ((hasDerivAt_id t).const_mul M).const_sub (s - K)
    · have h4 := le_max_left ((r - b) * I - r * K) 0
      rw [← hM] at h4
      have h5 : (r - b) * s ≤ (r - b) * I := mul_le_mul_of_nonneg_left h2.le (by linarith)
      have h6 : 0 ≤ r * (M * t) := by positivity
      linarith
  · intro s t h1 h2 h3 h4 h5 ε hε
    have hc : Continuous fun q : ℝ × ℝ => q.1 - K - M * q.2 := by fun_prop
    have := (hc.tendsto (s, t)).mono_left (nhdsWithin_le_nhds (s := Ioo 0 I ×ˢ Ioi 0))
    refine this.eventually_lt_const ?_
    have := le_max_left (s - K) 0
    have : 0 ≤ M * t := by positivity
    simp only
    linarith
  · intro T₁
    refine ⟨I - K, fun s t h1 h2 h3 h4 => ?_⟩
    have : 0 ≤ M * t := by positivity
    linarith

/-- The call exercised at a level is worth at most what the level pays. -/
theorem barrierCall_le_level {r b σ K I : ℝ} (hr : 0 ≤ r) (hKI : K ≤ I) {V : ℝ → ℝ → ℝ}
    (hV : IsBarrierCall r b σ K I V) {S T : ℝ} (hS : 0 < S) (hSI : S < I) (hT : 0 < T) : V S T ≤ I - K := by
  have h := bs_max_principle (r := r) (b := b) (σ := σ) (I := I) (W := fun s t => V s t + -(I - K))
    (hV.continuous.add continuousOn_const)
    (fun s t h1 h2 h3 => by
      obtain ⟨V1, V2, V3, a1, a2, a3, a4⟩ := hV.equation s t h1 h2 h3
      refine ⟨V1, V2, V3, a1.mono fun x hx => hx.add_const _, a2, a3.add_const _, ?_⟩
      rw [a4]
      nlinarith [mul_nonneg hr (sub_nonneg.2 hKI)])
    (fun s t h1 h2 h3 h4 ε hε => by
      have := (hV.boundary s t h1 h2 h3 h4).add_const (-(I - K))
      refine this.eventually (gt_mem_nhds ?_)
      have : max (s - K) 0 ≤ I - K := max_le (by linarith) (by linarith)
      linarith)
    (fun T₁ => by
      obtain ⟨C, hC⟩ := hV.bounded T₁
      refine ⟨C + -(I - K), fun s t h1 h2 h3 h4 => ?_⟩
      have a := (abs_le.1 (hC s t h1 h2 h3 h4)).2
      linarith) hS hSI hT
  linarith

/-- The equation does not change with the unit of the spot. -/
theorem SolvesBS.scale {r b σ S T l : ℝ} {V : ℝ → ℝ → ℝ} (h : SolvesBS r b σ V (l * S) T) :
    SolvesBS r b σ (fun s t => V (l * s) t) S T := by
  obtain ⟨V1, V2, V3, a1, a2, a3, a4⟩ := h
  have hl : ∀ x : ℝ, HasDerivAt (fun s => l * s) l x := fun x => by simpa using (hasDerivAt_id x).const_mul l
  have ht : Tendsto (fun s : ℝ => l * s) (𝓝 S) (𝓝 (l * S)) := (continuous_const_mul l).tendsto S
  refine ⟨fun s => V1 (l * s) * l, V2 * l * l, V3, ?_, ?_, a3, ?_⟩
  · filter_upwards [ht.eventually a1] with s hs
    exact hs.comp s (hl s)
  · exact (HasDerivAt.comp S a2 (hl S)).mul_const l
  · rw [a4]; ring

theorem scale_tendsto {I s t l : ℝ} (hl0 : 0 < l) (hl1 : l ≤ 1) :
    Tendsto (fun q : ℝ × ℝ => (l * q.1, q.2)) (𝓝[Ioo 0 I ×ˢ Ioi 0] (s, t)) (𝓝[Ioo 0 I ×ˢ Ioi 0] (l * s, t)) := by
  refine tendsto_nhdsWithin_iff.2 ⟨?_, ?_⟩
  · have : Continuous fun q : ℝ × ℝ => (l * q.1, q.2) := by fun_prop
    exact (this.tendsto (s, t)).mono_left nhdsWithin_le_nhds
  · filter_upwards [self_mem_nhdsWithin] with q hq
    have h1 : 0 < q.1 := hq.1.1
    have h2 : q.1 < I := hq.1.2
    exact ⟨⟨by positivity, by nlinarith⟩, hq.2⟩

/-- Limits of the value at a lower spot. -/
theorem barrierCall_scaled_limit {r b σ K I : ℝ} {V : ℝ → ℝ → ℝ} (hV : IsBarrierCall r b σ K I V) {s t l B : ℝ} (hl0 : 0 < l)
    (hl1 : l < 1) (hs : 0 < s) (hsI : s ≤ I) (ht : 0 ≤ t) (h0 : t = 0 → max (l * s - K) 0 ≤ B)
    (h1 : 0 < t → V (l * s) t ≤ B) {ε : ℝ} (hε : 0 < ε) :
    ∀ᶠ q : ℝ × ℝ in 𝓝[Ioo 0 I ×ˢ Ioi 0] (s, t), V (l * q.1) q.2 < B + ε := by
  have hls : 0 < l * s := by positivity
  have hlsI : l * s < I := by nlinarith
  rcases ht.eq_or_lt with rfl | ht
  · have := (hV.boundary (l * s) 0 hls hlsI.le le_rfl (.inr rfl)).comp (scale_tendsto (I := I) (s := s) (t := 0) hl0 hl1.le)
    exact this.eventually_lt_const (by linarith [h0 rfl])
  · have hc : Tendsto (fun q : ℝ × ℝ => V q.1 q.2) (𝓝[Ioo 0 I ×ˢ Ioi 0] (l * s, t)) (𝓝 (V (l * s) t)) :=
      hV.continuous (l * s, t) ⟨⟨hls, hlsI⟩, ht⟩
    have := hc.comp (scale_tendsto (I := I) (s := s) (t := t) hl0 hl1.le)
    exact this.eventually_lt_const (by linarith [h1 ht])

theorem barrierCall_scaled_limit' {r b σ K I : ℝ} {V : ℝ → ℝ → ℝ} (hV : IsBarrierCall r b σ K I V) {s t l B : ℝ} (hl0 : 0 < l)
    (hl1 : l < 1) (hs : 0 < s) (hsI : s ≤ I) (ht : 0 ≤ t) (h0 : t = 0 → B ≤ max (l * s - K) 0)
    (h1 : 0 < t → B ≤ V (l * s) t) {ε : ℝ} (hε : 0 < ε) :
    ∀ᶠ q : ℝ × ℝ in 𝓝[Ioo 0 I ×ˢ Ioi 0] (s, t), B - ε < V (l * q.1) q.2 := by
  have hls : 0 < l * s := by positivity
  have hlsI : l * s < I := by nlinarith
  rcases ht.eq_or_lt with rfl | ht
  · have := (hV.boundary (l * s) 0 hls hlsI.le le_rfl (.inr rfl)).comp (scale_tendsto (I := I) (s := s) (t := 0) hl0 hl1.le)
    exact this.eventually_const_lt (by linarith [h0 rfl])
  · have hc : Tendsto (fun q : ℝ × ℝ => V q.1 q.2) (𝓝[Ioo 0 I ×ˢ Ioi 0] (l * s, t)) (𝓝 (V (l * s) t)) :=
      hV.continuous (l * s, t) ⟨⟨hls, hlsI⟩, ht⟩
    have := hc.comp (scale_tendsto (I := I) (s := s) (t := t) hl0 hl1.le)
    exact this.eventually_const_lt (by linarith [h1 ht])

theorem scaled_continuousOn {r b σ K I l : ℝ} {V : ℝ → ℝ → ℝ} (hV : IsBarrierCall r b σ K I V) (hl0 : 0 < l) (hl1 : l < 1) :
    ContinuousOn (fun q : ℝ × ℝ => V (l * q.1) q.2) (Ioo 0 I ×ˢ Ioi 0) := by
  have h : Continuous fun q : ℝ × ℝ => (l * q.1, q.2) := by fun_prop
  refine hV.continuous.comp (g := fun q : ℝ × ℝ => V q.1 q.2) h.continuousOn fun q hq => ?_
  have h1 : 0 < q.1 := hq.1.1
  have h2 : q.1 < I := hq.1.2
  exact ⟨⟨by positivity, by nlinarith⟩, hq.2⟩

/-- The call exercised at a level is worth more at a higher spot. -/
theorem barrierCall_mono_scale {r b σ K I : ℝ} (hr : 0 ≤ r) (hKI : K ≤ I) {V : ℝ → ℝ → ℝ}
    (hV : IsBarrierCall r b σ K I V) {S T l : ℝ} (hl0 : 0 < l) (hl1 : l < 1) (hS : 0 < S) (hSI : S < I) (hT : 0 < T) :
    V (l * S) T ≤ V S T := by
  have hin : ∀ s, 0 < s → s ≤ I → 0 < l * s ∧ l * s < I := fun s h1 h2 => ⟨by positivity, by nlinarith⟩
  refine barrierCall_ge_sub (U := fun s t => V (l * s) t) hV (scaled_continuousOn hV hl0 hl1) ?_ ?_ ?_ hS hSI hT
  · intro s t h1 h2 h3
    obtain ⟨a, b⟩ := hin s h1 h2.le
    exact (SolvesBS.scale (hV.equation _ t a b h3)).sub
  · intro s t h1 h2 h3 _ h5 ε hε
    refine barrierCall_scaled_limit hV hl0 hl1 h1 h2 h3 (fun _ => ?_) (fun ht => ?_) hε
    · exact max_le_max (by nlinarith) le_rfl
    · obtain rfl : s = I := h5.resolve_right ht.ne'
      obtain ⟨a, b⟩ := hin s h1 le_rfl
      exact (barrierCall_le_level hr hKI hV a b ht).trans (le_max_left _ _)
  · intro T₁
    obtain ⟨C, hC⟩ := hV.bounded T₁
    refine ⟨C, fun s t h1 h2 h3 h4 => ?_⟩
    obtain ⟨a, b⟩ := hin s h1 h2.le
    exact (abs_le.1 (hC _ t a b h3 h4)).2

/-- General form of the comparison for the difference of the value at two spots: `V(S) - k V(lS)` is at most a linear
function of spot and time if it is so at the level and at expiry. -/
theorem barrierCall_diff {r b σ K I : ℝ} (hr : 0 ≤ r) (hb : b ≤ r) {V : ℝ → ℝ → ℝ}
    (hV : IsBarrierCall r b σ K I V) {S T l k x y M : ℝ} (hl0 : 0 < l) (hl1 : l < 1) (hk : 0 < k) (hx : 0 ≤ x) (hy : 0 ≤ y)
    (hM : 0 ≤ M) (h0 : ∀ s, 0 < s → s ≤ I → max (s - K) 0 - k * max (l * s - K) 0 ≤ x * s + y)
    (hI : ∀ t, 0 < t → max (I - K) 0 - k * V (l * I) t ≤ x * I + y + M * t)
    (hS : 0 < S) (hSI : S < I) (hT : 0 < T) :
    V S T - k * V (l * S) T ≤ x * S + y + M * T := by
  have hin : ∀ s, 0 < s → s ≤ I → 0 < l * s ∧ l * s < I := fun s h1 h2 => ⟨by positivity, by nlinarith⟩
  have h := bs_max_principle (r := r) (b := b) (σ := σ) (I := I)
    (W := fun s t => (V s t + -k * V (l * s) t) + -(x * s + y + M * t))
    ((hV.continuous.add (continuousOn_const.mul (scaled_continuousOn hV hl0 hl1))).add (by fun_prop))
    (fun s t h1 h2 h3 => by
      obtain ⟨a, c⟩ := hin s h1 h2.le
      refine (SolvesBSLemmas.add (hV.equation s t h1 h2 h3)
        (SolvesBSLemmas.smul (-k) (SolvesBS.scale (hV.equation _ t a c h3)))).sub.add ?_
      refine ⟨fun _ => -x, 0, -M, Eventually.of_forall fun z => ?_, hasDerivAt_const s (-x), ?_, ?_⟩
      · have := (((hasDerivAt_id z).const_mul x).add_const y).add_const (M * t)
        rw [mul_one] at this
        exact this.fun_neg
      · have := ((hasDerivAt_id t).const_mul M).const_add (x * s + y)
        rw [mul_one] at this
        exact this.fun_neg
      · have e1 : 0 ≤ (r - b) * (x * s) := mul_nonneg (by linarith) (by positivity)
        have e2 : 0 ≤ r * (y + M * t) := by positivity
        linarith)
    (fun s t h1 h2 h3 h5 ε hε => by
      have hv := (hV.boundary s t h1 h2 h3 h5).eventually_lt_const (show max (s - K) 0 < max (s - K) 0 + ε / 4 by linarith)
      have hw := barrierCall_scaled_limit' hV hl0 hl1 h1 h2 h3 (B := (max (s - K) 0 - (x * s + y + M * t)) / k)
        (fun ht => by
          subst ht
          rw [div_le_iff₀ hk]
          have := h0 s h1 h2
          linarith)
        (fun ht => by
          obtain rfl : s = I := h5.resolve_right ht.ne'
          rw [div_le_iff₀ hk]
          have := hI t ht
          linarith) (show 0 < ε / (4 * k) by positivity)
      have hc : Continuous fun q : ℝ × ℝ => x * q.1 + y + M * q.2 := by fun_prop
      have hl := ((hc.tendsto (s, t)).mono_left (nhdsWithin_le_nhds (s := Ioo 0 I ×ˢ Ioi 0))).eventually_const_lt
        (show x * s + y + M * t - ε / 4 < x * s + y + M * t by linarith)
      filter_upwards [hv, hw, hl] with q a1 a2 a3
      have a4 := mul_lt_mul_of_pos_left a2 hk
      have e : k * ((max (s - K) 0 - (x * s + y + M * t)) / k - ε / (4 * k)) = max (s - K) 0 - (x * s + y + M * t) - ε / 4 := by
        field_simp
      rw [e] at a4
      linarith)
    (fun T₁ => by
      obtain ⟨C, hC⟩ := hV.bounded T₁
      refine ⟨C + k * C, fun s t h1 h2 h3 h4 => ?_⟩
      obtain ⟨a, c⟩ := hin s h1 h2.le
      have a1 := (abs_le.1 (hC s t h1 h2 h3 h4)).2
      have a2 := mul_le_mul_of_nonneg_left (abs_le.1 (hC _ t a c h3 h4)).1 hk.le
      have a3 : 0 ≤ x * s + y + M * t := by positivity
      linarith) hS hSI hT
  linarith

/-- … by at most the difference of the spots and the shortfall against the exercise value. -/
theorem barrierCall_slope_scale {r b σ K I : ℝ} (hr : 0 ≤ r) (hb : b ≤ r) (hKI : K ≤ I) {V : ℝ → ℝ → ℝ}
    (hV : IsBarrierCall r b σ K I V) {S T l : ℝ} (hl0 : 0 < l) (hl1 : l < 1) (hI : 0 < I) (hS : 0 < S) (hSI : S < I) (hT : 0 < T) :
    V S T - V (l * S) T ≤ (S - l * S) + max ((r - b) * I - r * K) 0 * T := by
  have h := barrierCall_diff hr hb hV (k := 1) (x := 1 - l) (y := 0) (M := max ((r - b) * I - r * K) 0) hl0 hl1 one_pos
    (by linarith) le_rfl (le_max_right _ _)
    (fun s h1 h2 => by
      have : max (s - K) 0 ≤ max (l * s - K) 0 + (1 - l) * s := by
        refine max_le ?_ ?_
        · have := le_max_left (l * s - K) 0; linarith
        · have := le_max_right (l * s - K) 0
          have : 0 ≤ (1 - l) * s := mul_nonneg (by linarith) h1.le
          linarith
      linarith)
    (fun t ht => by
      have := barrierCall_ge_exercise hr hb hV (S := l * I) (by positivity) (by nlinarith) ht
      rw [max_eq_left (show 0 ≤ I - K by linarith)]
      linarith) hS hSI hT
  linarith

/-- The call exercised at a level is at most the chord of its exercise value. -/
theorem barrierCall_le_chord {r b σ K I : ℝ} (hb : b ≤ r) (hK : 0 < K) (hKI : K ≤ I) {V : ℝ → ℝ → ℝ}
    (hV : IsBarrierCall r b σ K I V) {S T : ℝ} (hS : 0 < S) (hSI : S < I) (hT : 0 < T) : V S T ≤ S * ((I - K) / I) := by
  have hI : 0 < I := hK.trans_le hKI
  set x := (I - K) / I with hx
  have hx0 : 0 ≤ x := div_nonneg (by linarith) hI.le
  have hxI : I * x = I - K := by rw [hx]; field_simp
  have h := bs_max_principle (r := r) (b := b) (σ := σ) (I := I) (W := fun s t => V s t + -(x * s))
    (hV.continuous.add (by fun_prop))
    (fun s t h1 h2 h3 => by
      refine (hV.equation s t h1 h2 h3).sub.add ?_
      refine ⟨fun _ => -x, 0, 0, Eventually.of_forall fun z => ?_, hasDerivAt_const s (-x), hasDerivAt_const t _, ?_⟩
      · have := (hasDerivAt_id z).const_mul x
        rw [mul_one] at this
        exact this.fun_neg
      · have e1 : 0 ≤ (r - b) * (x * s) := mul_nonneg (by linarith) (by positivity)
        linarith)
    (fun s t h1 h2 h3 h5 ε hε => by
      have hv := (hV.boundary s t h1 h2 h3 h5).eventually_lt_const (show max (s - K) 0 < max (s - K) 0 + ε / 2 by linarith)
      have hc : Continuous fun q : ℝ × ℝ => x * q.1 := by fun_prop
      have hl := ((hc.tendsto (s, t)).mono_left (nhdsWithin_le_nhds (s := Ioo 0 I ×ˢ Ioi 0))).eventually_const_lt
        (show x * s - ε / 2 < x * s by linarith)
      have hm : max (s - K) 0 ≤ x * s := by
        refine max_le ?_ (by positivity)
        have : s - K = x * s - (1 - s / I) * K := by rw [hx]; field_simp; ring
        have h6 : s / I ≤ 1 := (div_le_one hI).2 h2
        have : 0 ≤ (1 - s / I) * K := mul_nonneg (by linarith) hK.le
        linarith
      filter_upwards [hv, hl] with q a1 a2
      linarith)
    (fun T₁ => by
      obtain ⟨C, hC⟩ := hV.bounded T₁
      refine ⟨C, fun s t h1 h2 h3 h4 => ?_⟩
      have a1 := (abs_le.1 (hC s t h1 h2 h3 h4)).2
      have a3 : 0 ≤ x * s := by positivity
      linarith) hS hSI hT
  linarith

/-- Strike: if strike and level grow in the same proportion the value falls, by at most the difference of the strikes and
the shortfall against the exercise value. Here `l` is the ratio of the smaller to the larger strike. -/
theorem barrierCall_strike_scale {r b σ K I : ℝ} (hr : 0 ≤ r) (hb : b ≤ r) (hK : 0 < K) (hKI : K ≤ I) {V : ℝ → ℝ → ℝ}
    (hV : IsBarrierCall r b σ K I V) {S T l : ℝ} (hl0 : 0 < l) (hl1 : l < 1) (hS : 0 < S) (hSI : S < I) (hT : 0 < T) :
    1 / l * V (l * S) T ≤ V S T ∧
      V S T - 1 / l * V (l * S) T ≤ (1 / l * K - K) + 1 / l * max ((r - b) * I - r * K) 0 * T := by
  have hI : 0 < I := hK.trans_le hKI
  have hll : 1 / l * l = 1 := by field_simp
  have hl1' : 1 < 1 / l := (one_lt_div hl0).2 hl1
  have hin : ∀ s, 0 < s → s ≤ I → 0 < l * s ∧ l * s < I := fun s h1 h2 => ⟨by positivity, by nlinarith⟩
  constructor
  · refine barrierCall_ge_sub (U := fun s t => 1 / l * V (l * s) t) hV
      (continuousOn_const.mul (scaled_continuousOn hV hl0 hl1)) ?_ ?_ ?_ hS hSI hT
    · intro s t h1 h2 h3
      obtain ⟨a, b⟩ := hin s h1 h2.le
      exact (SolvesBSLemmas.smul _ (SolvesBS.scale (hV.equation _ t a b h3))).sub
    · intro s t h1 h2 h3 _ h5 ε hε
      have := barrierCall_scaled_limit hV hl0 hl1 h1 h2 h3 (B := l * max (s - K) 0) (fun _ => ?_) (fun ht => ?_)
        (show 0 < l * ε by positivity)
      · filter_upwards [this] with q hq
        have := mul_lt_mul_of_pos_left hq (show 0 < 1 / l by positivity)
        have e : 1 / l * (l * max (s - K) 0 + l * ε) = max (s - K) 0 + ε := by field_simp
        rwa [e] at this
      · rw [mul_max_of_nonneg _ _ hl0.le, mul_zero]
        exact max_le_max (by nlinarith) le_rfl
      · obtain rfl : s = I := h5.resolve_right ht.ne'
        obtain ⟨a, c⟩ := hin s h1 le_rfl
        have h6 := barrierCall_le_chord hb hK hKI hV a c ht
        have e : l * s * ((s - K) / s) = l * (s - K) := by field_simp
        rw [e] at h6
        exact h6.trans (mul_le_mul_of_nonneg_left (le_max_left _ _) hl0.le)
    · intro T₁
      obtain ⟨C, hC⟩ := hV.bounded T₁
      refine ⟨1 / l * C, fun s t h1 h2 h3 h4 => ?_⟩
      obtain ⟨a, b⟩ := hin s h1 h2.le
      exact mul_le_mul_of_nonneg_left (abs_le.1 (hC _ t a b h3 h4)).2 (by positivity)
  · have h := barrierCall_diff hr hb hV (k := 1 / l) (x := 0) (y := 1 / l * K - K)
      (M := 1 / l * max ((r - b) * I - r * K) 0) hl0 hl1 (by positivity) le_rfl (by nlinarith)
      (mul_nonneg (by positivity) (le_max_right _ _))
      (fun s h1 h2 => by
        rw [mul_max_of_nonneg _ _ (show (0:ℝ) ≤ 1 / l by positivity), mul_zero,
          show 1 / l * (l * s - K) = s - 1 / l * K by field_simp]
        have : max (s - K) 0 ≤ max (s - 1 / l * K) 0 + (1 / l * K - K) := by
          refine max_le ?_ ?_
          · have := le_max_left (s - 1 / l * K) 0; linarith
          · have := le_max_right (s - 1 / l * K) 0
            nlinarith
        linarith)
      (fun t ht => by
        have := mul_le_mul_of_nonneg_left (barrierCall_ge_exercise hr hb hV (S := l * I) (by positivity) (by nlinarith) ht)
          (show (0:ℝ) ≤ 1 / l by positivity)
        have e : 1 / l * (l * I - K - max ((r - b) * I - r * K) 0 * t)
          = I - 1 / l * K - 1 / l * max ((r - b) * I - r * K) 0 * t := by field_simp
        rw [e] at this
        rw [max_eq_left (show 0 ≤ I - K by linarith)]
        linarith) hS hSI hT
    linarith

end Verif
