import Verif.Props.BS93Exercise

/-!
# C122: the Bjerksund–Stensland price as a function of spot and strike

The price of a call rises with the spot and falls with the strike, that of a put the other way round. It changes by at
most the change of spot or strike, increased by the shortfall against the exercise value of C121.
-/
namespace Verif.Props
open Real Verif.Spec

theorem bs93Err_scale {S K T r b σ I l : ℝ} (hl : 0 < l) :
    bs93Err (l * S) (l * K) T r b σ (l * I) = l * bs93Err S K T r b σ I := by
  unfold bs93Err
  rw [mul_div_mul_left _ _ hl.ne', mul_div_mul_left _ _ hl.ne']
  ring

/-- Shape of a price `p` (spot `S`) and a price `p'` (spot `S' ≥ S`), or of the prices at two strikes. -/
structure Rises (p p' d e : ℝ) : Prop where
  /-- the price does not fall … -/
  mono : p ≤ p' + e
  /-- … and rises by at most `d` -/
  slope : p' ≤ p + d + e

/-- **C122.** The call as a function of the spot: at spots `S ≤ S'` the prices `p`, `p'` satisfy `p ≤ p'` and
`p' - p ≤ (S' - S) + T max((r-b) I - r K, 0)`, up to the error of the normal distribution. -/
theorem C122_call_spot {S S' K T r b σ : ℝ} (hS : 0 < S) (hSS : S ≤ S') (hK : 0 < K) (hT : 0 < T) (hσ : 0 < σ) (hr : 0 ≤ r)
    (hb : b < r) (h : 0 ≤ b * T + 2 * σ * √T) :
    ∃ p p' I, BS93.call ⟨S, K, T, r, b, some σ⟩ = .ok (p, some I) ∧ BS93.call ⟨S', K, T, r, b, some σ⟩ = .ok (p', some I) ∧
      Rises p p' (S' - S + max ((r - b) * I - r * K) 0 * T) (bs93Err S K T r b σ I + bs93Err S' K T r b σ I) := by
  have hI := (C40_trigger_partial hK hσ hb h).1
  set I := BS93.trigger K T r b σ with hId
  have hS' : 0 < S' := hS.trans_le hSS
  have hI0 : 0 < I := hK.trans_le hI
  have e1 := bs93Err_nonneg (T := T) (r := r) (b := b) (σ := σ) hS hK hI
  have e2 := bs93Err_nonneg (T := T) (r := r) (b := b) (σ := σ) hS' hK hI
  have hM : 0 ≤ max ((r - b) * I - r * K) 0 * T := mul_nonneg (le_max_right _ _) hT.le
  obtain ⟨c1, c2⟩ := C39_call (S := S) (K := K) (T := T) (r := r) (b := b) (σ := σ) hb
  obtain ⟨d1, d2⟩ := C39_call (S := S') (K := K) (T := T) (r := r) (b := b) (σ := σ) hb
  obtain ⟨V, hV⟩ := C76_spec_exists hK hI hσ hb
  rcases lt_or_ge S' I with hl' | hl'
  · have hl : S < I := hSS.trans_lt hl'
    refine ⟨_, _, I, c1 hl, d1 hl', ?_⟩
    have a1 := abs_le.1 (C76_below hK hI hσ hb hV hS hl hT)
    have a2 := abs_le.1 (C76_below hK hI hσ hb hV hS' hl' hT)
    rcases hSS.eq_or_lt with rfl | hlt
    · exact ⟨by linarith, by linarith⟩
    · have hr1 : S / S' < 1 := (div_lt_one hS').2 hlt
      have m1 := barrierCall_mono_scale hr hI hV (div_pos hS hS') hr1 hS' hl' hT
      have m2 := barrierCall_slope_scale hr hb.le hI hV (div_pos hS hS') hr1 hI0 hS' hl' hT
      rw [div_mul_cancel₀ _ hS'.ne'] at m1 m2
      exact ⟨by linarith [a1.2, a2.1], by linarith [a1.1, a2.2]⟩
  · rcases lt_or_ge S I with hl | hl
    · refine ⟨_, _, I, c1 hl, d2 hl', ?_⟩
      have a1 := abs_le.1 (C76_below hK hI hσ hb hV hS hl hT)
      have m1 := barrierCall_le_level hr hI hV hS hl hT
      have m2 := barrierCall_ge_exercise hr hb.le hV hS hl hT
      exact ⟨by linarith [a1.2], by linarith [a1.1]⟩
    · exact ⟨_, _, I, c2 hl, d2 hl', by linarith, by linarith⟩

/-- **C122.** The call as a function of the strike: at strikes `K ≤ K'` the prices `p`, `p'` satisfy `p' ≤ p` and
`p - p' ≤ (K' - K) + T max((r-b) I' - r K', 0)`, up to the error of the normal distribution. -/
theorem C122_call_strike {S K K' T r b σ : ℝ} (hS : 0 < S) (hK : 0 < K) (hKK : K ≤ K') (hT : 0 < T) (hσ : 0 < σ) (hr : 0 ≤ r)
    (hb : b < r) (h : 0 ≤ b * T + 2 * σ * √T) :
    ∃ p p' I I', BS93.call ⟨S, K, T, r, b, some σ⟩ = .ok (p, some I) ∧
      BS93.call ⟨S, K', T, r, b, some σ⟩ = .ok (p', some I') ∧
      Rises p' p (K' - K + max ((r - b) * I' - r * K') 0 * T) (bs93Err S K T r b σ I + bs93Err S K' T r b σ I') := by
  have hK' : 0 < K' := hK.trans_le hKK
  have hI := (C40_trigger_partial hK hσ hb h).1
  have hI' := (C40_trigger_partial hK' hσ hb h).1
  have hm : 0 < K' / K := by positivity
  have hsc : BS93.trigger K' T r b σ = K' / K * BS93.trigger K T r b σ := by
    have := bs_trigger_scale K T r b σ (K' / K) hm
    rwa [div_mul_cancel₀ _ hK.ne'] at this
  set I := BS93.trigger K T r b σ with hId
  set I' := BS93.trigger K' T r b σ with hId'
  have hI0 : 0 < I := hK.trans_le hI
  have e1 := bs93Err_nonneg (T := T) (r := r) (b := b) (σ := σ) hS hK hI
  have e2 := bs93Err_nonneg (T := T) (r := r) (b := b) (σ := σ) hS hK' hI'
  have hM : 0 ≤ max ((r - b) * I' - r * K') 0 * T := mul_nonneg (le_max_right _ _) hT.le
  obtain ⟨c1, c2⟩ := C39_call (S := S) (K := K) (T := T) (r := r) (b := b) (σ := σ) hb
  obtain ⟨d1, d2⟩ := C39_call (S := S) (K := K') (T := T) (r := r) (b := b) (σ := σ) hb
  obtain ⟨V, hV⟩ := C76_spec_exists hK hI hσ hb
  rcases hKK.eq_or_lt with rfl | hlt
  · rcases lt_or_ge S I with hl | hl
    · exact ⟨_, _, I, I, c1 hl, c1 hl, by linarith, by linarith⟩
    · exact ⟨_, _, I, I, c2 hl, c2 hl, by linarith, by linarith⟩
  have hl0 : 0 < K / K' := by positivity
  have hl1 : K / K' < 1 := (div_lt_one hK').2 hlt
  have hinv : 1 / (K / K') = K' / K := by rw [one_div_div]
  have hMs : K' / K * max ((r - b) * I - r * K) 0 = max ((r - b) * I' - r * K') 0 := by
    rw [mul_max_of_nonneg _ _ hm.le, mul_zero, hsc]
    congr 1
    field_simp
  have hls : 0 < K / K' * S := by positivity
  have hIl : S < I' ↔ K / K' * S < I := by
    rw [hsc, div_mul_eq_mul_div, div_mul_eq_mul_div, lt_div_iff₀ hK, div_lt_iff₀ hK', mul_comm S, mul_comm I]
  -- the value at the larger strike
  have hp' : S < I' → |BS93.below S K' T r b σ I' - K' / K * V (K / K' * S) T| ≤ bs93Err S K' T r b σ I' := fun hl' => by
    have hb1 := C76_below hK hI hσ hb hV hls (hIl.1 hl') hT
    obtain ⟨q1, q2⟩ := C39_call (S := K / K' * S) (K := K) (T := T) (r := r) (b := b) (σ := σ) hb
    obtain ⟨x, y, hx, hy⟩ := C60_call (l := K' / K) hm hls hK hσ (r := r) (b := b) (t := T) (.inr h)
    rw [q1 (hIl.1 hl')] at hx
    injection hx with hx
    obtain ⟨rfl, rfl⟩ := Prod.mk.inj hx
    rw [show K' / K * (K / K' * S) = S by field_simp, div_mul_cancel₀ _ hK.ne', d1 hl'] at hy
    injection hy with hy
    have hy := (Prod.mk.inj hy).1
    have es := bs93Err_scale (S := K / K' * S) (K := K) (T := T) (r := r) (b := b) (σ := σ) (I := I) hm
    rw [show K' / K * (K / K' * S) = S by field_simp, div_mul_cancel₀ _ hK.ne', ← hsc] at es
    rw [hy, es, ← mul_sub, abs_mul, abs_of_pos hm]
    exact mul_le_mul_of_nonneg_left hb1 hm.le
  rcases lt_or_ge S I with hl | hl
  · have hl' : S < I' := hIl.2 ((mul_lt_of_lt_one_left hS hl1).trans hl)
    refine ⟨_, _, I, I', c1 hl, d1 hl', ?_⟩
    have a1 := abs_le.1 (C76_below hK hI hσ hb hV hS hl hT)
    have a2 := abs_le.1 (hp' hl')
    obtain ⟨m1, m2⟩ := barrierCall_strike_scale hr hb.le hK hI hV hl0 hl1 hS hl hT
    rw [hinv] at m1 m2
    rw [hMs, div_mul_cancel₀ _ hK.ne'] at m2
    exact ⟨by linarith [a1.1, a2.2], by linarith [a1.2, a2.1]⟩
  · rcases lt_or_ge S I' with hl' | hl'
    · refine ⟨_, _, I, I', c2 hl, d1 hl', ?_⟩
      have a2 := abs_le.1 (hp' hl')
      have m1 := mul_le_mul_of_nonneg_left (barrierCall_le_chord hb.le hK hI hV hls (hIl.1 hl') hT) hm.le
      have m2 := mul_le_mul_of_nonneg_left (barrierCall_ge_exercise hr hb.le hV hls (hIl.1 hl') hT) hm.le
      have z1 : K' / K * (K / K' * S * ((I - K) / I)) = S * ((I - K) / I) := by field_simp
      have z2 : S * ((I - K) / I) ≤ S - K := by
        have : S * ((I - K) / I) = S - K * (S / I) := by field_simp
        have h1 : 1 ≤ S / I := (one_le_div hI0).2 hl
        nlinarith
      have z3 : K' / K * (K / K' * S - K - max ((r - b) * I - r * K) 0 * T)
          = S - K' - K' / K * max ((r - b) * I - r * K) 0 * T := by field_simp
      rw [z1] at m1
      rw [z3, hMs] at m2
      exact ⟨by linarith [a2.2], by linarith [a2.1]⟩
    · exact ⟨_, _, I, I', c2 hl, d2 hl', by linarith, by linarith⟩

/-- **C122.** The put as a function of the strike. -/
theorem C122_put_strike {S K K' T r b σ : ℝ} (hS : 0 < S) (hK : 0 < K) (hKK : K ≤ K') (hT : 0 < T) (hσ : 0 < σ) (hr : 0 < r)
    (hb : b ≤ r) (h : 0 ≤ -b * T + 2 * σ * √T) :
    ∃ p p' I, BS93.put ⟨S, K, T, r, b, some σ⟩ = .ok (p, some I) ∧ BS93.put ⟨S, K', T, r, b, some σ⟩ = .ok (p', some I) ∧
      Rises p p' (K' - K + max (r * I - (r - b) * S) 0 * T)
        (bs93Err K S T (r - b) (-b) σ I + bs93Err K' S T (r - b) (-b) σ I) := by
  obtain ⟨p, p', I, h1, h2, h3⟩ := C122_call_spot (r := r - b) (b := -b) hK hKK hS hT hσ (by linarith) (by linarith) h
  refine ⟨p, p', I, h1, h2, ?_⟩
  rwa [show r - b - -b = r by ring] at h3

/-- **C122.** The put as a function of the spot: it falls as the spot rises. -/
theorem C122_put_spot {S S' K T r b σ : ℝ} (hS : 0 < S) (hSS : S ≤ S') (hK : 0 < K) (hT : 0 < T) (hσ : 0 < σ) (hr : 0 < r)
    (hb : b ≤ r) (h : 0 ≤ -b * T + 2 * σ * √T) :
    ∃ p p' I I', BS93.put ⟨S, K, T, r, b, some σ⟩ = .ok (p, some I) ∧
      BS93.put ⟨S', K, T, r, b, some σ⟩ = .ok (p', some I') ∧
      Rises p' p (S' - S + max (r * I' - (r - b) * S') 0 * T)
        (bs93Err K S T (r - b) (-b) σ I + bs93Err K S' T (r - b) (-b) σ I') := by
  obtain ⟨p, p', I, I', h1, h2, h3⟩ := C122_call_strike (r := r - b) (b := -b) hK hS hSS hT hσ (by linarith) (by linarith) h
  refine ⟨p, p', I, I', h1, h2, ?_⟩
  rwa [show r - b - -b = r by ring] at h3

/-- Non-vacuous: the textbook call on the spots 42 and 43. -/
theorem C122_example : ∃ p p' I, BS93.call ⟨42, 40, 0.75, 0.04, -0.04, some 0.35⟩ = .ok (p, some I) ∧
    BS93.call ⟨43, 40, 0.75, 0.04, -0.04, some 0.35⟩ = .ok (p', some I) ∧
    p ≤ p' + (bs93Err 42 40 0.75 0.04 (-0.04) 0.35 I + bs93Err 43 40 0.75 0.04 (-0.04) 0.35 I) := by
  have h : (0 : ℝ) ≤ -0.04 * 0.75 + 2 * 0.35 * √0.75 := by
    have : (0.5 : ℝ) ≤ √0.75 := Real.le_sqrt_of_sq_le (by norm_num)
    norm_num at *; linarith
  obtain ⟨p, p', I, h1, h2, h3⟩ := C122_call_spot (S := 42) (S' := 43) (K := 40) (T := 0.75) (r := 0.04) (b := -0.04) (σ := 0.35)
    (by norm_num) (by norm_num) (by norm_num) (by norm_num) (by norm_num) (by norm_num) (by norm_num) h
  exact ⟨p, p', I, h1, h2, h3.mono⟩

end Verif.Props
