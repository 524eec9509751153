import Verif.Props.BS93
import Verif.Lemmas.BarrierCallValue
import Verif.Lemmas.BarrierDual

/-!
# C76: what the Bjerksund–Stensland price is

The specification `Spec.IsBarrierCall` describes the value of a call that is exercised when the spot first reaches
a fixed level `I`: the Black–Scholes equation below the level, and the exercise value at the level and at expiry. It
knows nothing of the formula. The code's price is that value for its own trigger, up to the error of `CND`.
-/
namespace Verif.Props
open Real Verif.Spec

/-- Accumulated error of the ten normal distribution values in the Bjerksund–Stensland formula. -/
noncomputable def bs93Err (S K T r b σ I : ℝ) : ℝ :=
  7.5e-8 * ((I - K) * (S / I) ^ BS93.beta r b σ * (1 + (I / S) ^ (2 * b / σ ^ 2 + (2 * BS93.beta r b σ - 1)))
    + 2 * (S * exp ((b - r) * T) * (1 + (I / S) ^ (2 * b / σ ^ 2 + 1)))
    + 2 * (K * exp (-r * T) * (1 + (I / S) ^ (2 * b / σ ^ 2 - 1))))

/-- **C76.** The specification is satisfied by exactly one value: it exists … -/
theorem C76_spec_exists {r b σ K I : ℝ} (hK : 0 < K) (hKI : K ≤ I) (hσ : 0 < σ) (hb : b < r) :
    ∃ V, IsBarrierCall r b σ K I V := by
  obtain ⟨hβ, hroot⟩ := bs_beta hσ hb
  exact ⟨_, barCall_isBarrierCall (β := BS93.beta r b σ) (by linarith) hK hKI hσ (by unfold powRate; linear_combination hroot)⟩

/-- **C76.** … and it is unique (maximum principle). -/
theorem C76_spec_unique {r b σ K I : ℝ} {V W : ℝ → ℝ → ℝ} (hV : IsBarrierCall r b σ K I V)
    (hW : IsBarrierCall r b σ K I W) {S T : ℝ} (hS : 0 < S) (hSI : S < I) (hT : 0 < T) : V S T = W S T :=
  barrierCall_unique hV hW hS hSI hT

/-- **C76.** For every level `I ≥ K` the formula the code uses below the trigger is, at every spot below `I` and every
positive time to expiry, the value of the call exercised at `I`, up to the error of the normal distribution. -/
theorem C76_below {r b σ K I : ℝ} (hK : 0 < K) (hKI : K ≤ I) (hσ : 0 < σ) (hb : b < r) {V : ℝ → ℝ → ℝ}
    (hV : IsBarrierCall r b σ K I V) {S T : ℝ} (hS : 0 < S) (hSI : S < I) (hT : 0 < T) :
    |BS93.below S K T r b σ I - V S T| ≤ bs93Err S K T r b σ I := by
  obtain ⟨hβ, hroot⟩ := bs_beta hσ hb
  have hI : 0 < I := hK.trans_le hKI
  have hr : powRate r b σ (BS93.beta r b σ) = 0 := by unfold powRate; linear_combination hroot
  rw [barrierCall_unique hV (barCall_isBarrierCall (by linarith) hK hKI hσ hr) hS hSI hT]
  have hα : 0 ≤ (I - K) * I ^ (-BS93.beta r b σ) := mul_nonneg (by linarith) (rpow_pos_of_pos hI _).le
  have n1 := phi_near (γ := BS93.beta r b σ) (H := I) (r := r) (b := b) (σ := σ) (T := T) hI hS
  have n2 := phi_near (γ := 1) (H := I) (r := r) (b := b) (σ := σ) (T := T) hI hS
  have n3 := phi_near (γ := 1) (H := K) (r := r) (b := b) (σ := σ) (T := T) hI hS
  have n4 := phi_near (γ := 0) (H := I) (r := r) (b := b) (σ := σ) (T := T) hI hS
  have n5 := phi_near (γ := 0) (H := K) (r := r) (b := b) (σ := σ) (T := T) hI hS
  have p1 : powRate r b σ 1 = b - r := by unfold powRate; ring
  have p0 : powRate r b σ 0 = -r := by unfold powRate; ring
  rw [hr, zero_mul, exp_zero, one_mul] at n1
  rw [p1, rpow_one, show 2 * b / σ ^ 2 + (2 * 1 - 1) = 2 * b / σ ^ 2 + 1 by ring] at n2 n3
  rw [p0, rpow_zero, mul_one, show 2 * b / σ ^ 2 + (2 * 0 - 1) = 2 * b / σ ^ 2 - 1 by ring] at n4 n5
  have hSI' : (S / I) ^ BS93.beta r b σ = I ^ (-BS93.beta r b σ) * S ^ BS93.beta r b σ := by
    rw [div_rpow hS.le hI.le, rpow_neg hI.le]; ring
  have m1 := mul_le_mul_of_nonneg_left n1 hα
  have m4 := mul_le_mul_of_nonneg_left n4 hK.le
  have m5 := mul_le_mul_of_nonneg_left n5 hK.le
  rw [← abs_of_nonneg hα, ← abs_mul, abs_of_nonneg hα] at m1
  rw [← abs_of_pos hK, ← abs_mul, abs_of_pos hK] at m4 m5
  unfold bs93Err
  rw [hSI']
  simp only [BS93.below, barCall]
  rw [abs_le] at *
  constructor
  · linarith [m1.1, m1.2, n2.1, n3.2, m4.2, m5.1]
  · linarith [m1.1, m1.2, n2.2, n3.1, m4.1, m5.2]

/-- **C76.** The price of `call()`: if `b T + 2σ√T ≥ 0` the returned trigger `I` is at least the strike, and the
returned price is the value of the call exercised at the level `I` – below `I` up to the error of the normal
distribution, from `I` on exactly the exercise value. -/
theorem C76_call {S K T r b σ : ℝ} (hS : 0 < S) (hK : 0 < K) (hT : 0 < T) (hσ : 0 < σ) (hb : b < r)
    (h : 0 ≤ b * T + 2 * σ * √T) :
    ∃ p I, BS93.call ⟨S, K, T, r, b, some σ⟩ = .ok (p, some I) ∧ K ≤ I ∧ (I ≤ S → p = S - K) ∧
      (S < I → ∀ V, IsBarrierCall r b σ K I V → |p - V S T| ≤ bs93Err S K T r b σ I) := by
  have hI := (C40_trigger_partial hK hσ hb h).1
  obtain ⟨c1, c2⟩ := C39_call (S := S) (K := K) (T := T) (r := r) (b := b) (σ := σ) hb
  rcases lt_or_ge S (BS93.trigger K T r b σ) with hlt | hge
  · exact ⟨_, _, c1 hlt, hI, fun hh => absurd hh (not_le.2 hlt), fun _ V hV => C76_below hK hI hσ hb hV hS hlt hT⟩
  · exact ⟨_, _, c2 hge, hI, fun _ => rfl, fun hh => absurd hge (not_le.2 hh)⟩

/-- **C76.** The price of `put()`: if `2σ√T ≥ b T` the returned trigger `I` (of the dual call) is at least the spot, and
the returned price is the value of the put with strike `K` exercised when the spot falls to the level `S K / I` –
above that level up to the error of the normal distribution, at or below it exactly the exercise value. -/
theorem C76_put {S K T r b σ : ℝ} (hS : 0 < S) (hK : 0 < K) (hT : 0 < T) (hσ : 0 < σ) (hr : 0 < r)
    (h : 0 ≤ -b * T + 2 * σ * √T) :
    ∃ p I, BS93.put ⟨S, K, T, r, b, some σ⟩ = .ok (p, some I) ∧ S ≤ I ∧ (S ≤ S * K / I → p = K - S) ∧
      (S * K / I < S → (∃ V, IsBarrierPut r b σ K (S * K / I) V) ∧
        ∀ V, IsBarrierPut r b σ K (S * K / I) V → |p - V S T| ≤ bs93Err K S T (r - b) (-b) σ I) := by
  obtain ⟨p, I, hc, hSI, hge, hlt⟩ := C76_call (r := r - b) (b := -b) hK hS hT hσ (by linarith) h
  have hI : 0 < I := hS.trans_le hSI
  have hiff : S * K / I < S ↔ K < I := by
    rw [div_lt_iff₀ hI]
    exact mul_lt_mul_iff_of_pos_left hS
  refine ⟨p, I, hc, hSI, fun hle => hge (not_lt.1 fun hn => not_lt.2 hle (hiff.2 hn)), fun hl => ⟨?_, fun V hV => ?_⟩⟩
  · obtain ⟨U, hU⟩ := C76_spec_exists (r := r - b) (b := -b) hS hSI hσ (by linarith)
    exact ⟨_, callToPut hS hK hI hU⟩
  · have := hlt (hiff.1 hl) _ (putToCall hS hK hI hV)
    rwa [one_div, inv_mul_cancel₀ hK.ne', one_mul, mul_div_assoc, div_self hK.ne', mul_one] at this

/-- **C76.** The level `S K / I` at which the put is exercised does not depend on the spot, so the prices of one put
at different spots are values of one and the same claim. -/
theorem C76_put_level {S S' K T r b σ : ℝ} (hS : 0 < S) (hS' : 0 < S') :
    S * K / BS93.trigger S T (r - b) (-b) σ = S' * K / BS93.trigger S' T (r - b) (-b) σ := by
  have h1 := bs_trigger_scale 1 T (r - b) (-b) σ S hS
  have h2 := bs_trigger_scale 1 T (r - b) (-b) σ S' hS'
  rw [mul_one] at h1 h2
  rw [h1, h2, mul_div_mul_left _ _ hS.ne', mul_div_mul_left _ _ hS'.ne']

/-- **C76.** Consequently the price lies between zero and the spot, up to that error. -/
theorem C76_bounds {S K T r b σ : ℝ} (hS : 0 < S) (hK : 0 < K) (hT : 0 < T) (hσ : 0 < σ) (hb : b < r)
    (h : 0 ≤ b * T + 2 * σ * √T) :
    ∃ p I, BS93.call ⟨S, K, T, r, b, some σ⟩ = .ok (p, some I) ∧
      (S < I → -bs93Err S K T r b σ I ≤ p ∧ p ≤ S + bs93Err S K T r b σ I) := by
  obtain ⟨p, I, hc, hKI, -, hlt⟩ := C76_call hS hK hT hσ hb h
  refine ⟨p, I, hc, fun hSI => ?_⟩
  obtain ⟨V, hV⟩ := C76_spec_exists hK hKI hσ hb
  have h1 := abs_le.1 (hlt hSI V hV)
  have h2 := barrierCall_nonneg hV hS hSI hT
  have h3 := barrierCall_le_spot hV hK.le hb.le hS hSI hT
  constructor <;> linarith [h1.1, h1.2]

/-- Non-vacuous: the textbook example satisfies the hypotheses, and there the value exists. -/
theorem C76_example : ∃ p I V, BS93.call ⟨42, 40, 0.75, 0.04, -0.04, some 0.35⟩ = .ok (p, some I) ∧
    IsBarrierCall 0.04 (-0.04) 0.35 40 I V ∧ (42 < I → |p - V 42 0.75| ≤ bs93Err 42 40 0.75 0.04 (-0.04) 0.35 I) := by
  have h : (0 : ℝ) ≤ -0.04 * 0.75 + 2 * 0.35 * √0.75 := by
    have : (0.5 : ℝ) ≤ √0.75 := Real.le_sqrt_of_sq_le (by norm_num)
    norm_num at *; linarith
  obtain ⟨p, I, h1, h2, -, h3⟩ := C76_call (S := 42) (K := 40) (T := 0.75) (r := 0.04) (b := -0.04) (σ := 0.35)
    (by norm_num) (by norm_num) (by norm_num) (by norm_num) (by norm_num) h
  obtain ⟨V, hV⟩ := C76_spec_exists (r := 0.04) (b := -0.04) (σ := 0.35) (K := 40) (I := I) (by norm_num) h2 (by norm_num) (by norm_num)
  exact ⟨p, I, V, h1, hV, fun hh => h3 hh V hV⟩

end Verif.Props
