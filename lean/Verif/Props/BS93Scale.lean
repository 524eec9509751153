import Verif.Props.BS93

/-!
# C59 and C60 on the methods `call()` and `put()`
-/

namespace Verif.Props
open Verif Real

/-- **C60**, `call()`: scaling spot and strike by `l > 0` scales option and trigger price by `l`, for every carry with
`b t + 2σ√t ≥ 0` or `b ≥ r`. -/
theorem C60_call {S K t r b σ l : ℝ} (hl : 0 < l) (hS : 0 < S) (hK : 0 < K) (hσ : 0 < σ)
    (h : r ≤ b ∨ 0 ≤ b * t + 2 * σ * √t) :
    ∃ p q, BS93.call ⟨S, K, t, r, b, some σ⟩ = .ok (p, q) ∧
      BS93.call ⟨l * S, l * K, t, r, b, some σ⟩ = .ok (l * p, q.map (l * ·)) :=
  C60_homogeneous hl hS fun hb => hK.trans_le (C40_trigger_partial hK hσ hb (h.resolve_left (not_le.2 hb))).1

/-- **C60**, `put()`, for every carry with `b t ≤ 2σ√t` or a rate `r ≤ 0`. -/
theorem C60_put {S K t r b σ l : ℝ} (hl : 0 < l) (hS : 0 < S) (hK : 0 < K) (hσ : 0 < σ)
    (h : r ≤ 0 ∨ b * t ≤ 2 * σ * √t) :
    ∃ p q, BS93.put ⟨S, K, t, r, b, some σ⟩ = .ok (p, q) ∧
      BS93.put ⟨l * S, l * K, t, r, b, some σ⟩ = .ok (l * p, q.map (l * ·)) :=
  C60_homogeneous hl hK fun hb => hS.trans_le
    (C40_trigger_partial hS hσ hb (by
      have := h.resolve_left (by linarith)
      linarith)).1

/-- **C59.** With `b t ≤ 2σ√t` the put is exercised only at spots up to the boundary `K/κ ≤ K`, while the trigger it reports is
at least the spot; so the reported trigger lies on the wrong side of the spot for every put that is not exercised. -/
theorem C59_put_reported {S K t r b σ : ℝ} (hS : 0 < S) (hK : 0 < K) (hσ : 0 < σ) (hr : 0 < r) (h : b * t ≤ 2 * σ * √t) :
    ∃ p I L, BS93.put ⟨S, K, t, r, b, some σ⟩ = .ok (p, some I) ∧ S ≤ I ∧ 0 < L ∧ L ≤ K ∧
      (S ≤ L → p = K - S) ∧ (L < S ↔ K < I) ∧
      ∀ S', 0 < S' → ∃ p', BS93.put ⟨S', K, t, r, b, some σ⟩ = .ok (p', some (I / S * S')) ∧ (S' ≤ L → p' = K - S') := by
  have h1 := C59_put_boundary hσ hr h
  have h0 := one_pos.trans_le h1
  obtain ⟨p, hp, ha, -⟩ := C59_put_trigger (K := K) hS hr h0
  refine ⟨p, _, K / BS93.trigger 1 t (r - b) (-b) σ, hp, le_mul_of_one_le_left hS.le h1, div_pos hK h0, div_le_self hK.le h1, ha,
    by rw [div_lt_iff₀ h0, mul_comm], fun S' hS' => ?_⟩
  obtain ⟨p', hp', ha', -⟩ := C59_put_trigger (K := K) hS' hr h0
  rw [mul_div_assoc, div_self hS.ne', mul_one]
  exact ⟨p', hp', ha'⟩

/-- Non-vacuous: the textbook contract meets the hypotheses of C59 and C60, and ten shares cost ten times one. -/
theorem C60_example :
    (∃ p q, BS93.call ⟨42, 40, 0.75, 0.04, -0.04, some 0.35⟩ = .ok (p, q) ∧
      BS93.call ⟨10 * 42, 10 * 40, 0.75, 0.04, -0.04, some 0.35⟩ = .ok (10 * p, q.map (10 * ·))) ∧
    (∃ p q, BS93.put ⟨42, 40, 0.75, 0.04, -0.04, some 0.35⟩ = .ok (p, q) ∧
      BS93.put ⟨10 * 42, 10 * 40, 0.75, 0.04, -0.04, some 0.35⟩ = .ok (10 * p, q.map (10 * ·))) ∧
    ∃ p I, BS93.put ⟨42, 40, 0.75, 0.04, -0.04, some 0.35⟩ = .ok (p, some I) ∧ 42 ≤ I := by
  have hs : (0.5 : ℝ) ≤ √0.75 := le_sqrt_of_sq_le (by norm_num)
  have hc : (-0.04 : ℝ) * 0.75 ≤ 2 * 0.35 * √0.75 := by linarith
  refine ⟨C60_call (by norm_num) (by norm_num) (by norm_num) (by norm_num) (Or.inr (by linarith)),
    C60_put (by norm_num) (by norm_num) (by norm_num) (by norm_num) (Or.inr hc), ?_⟩
  obtain ⟨p, I, L, hp, hI, -⟩ := C59_put_reported (S := 42) (K := 40) (t := 0.75) (r := 0.04) (b := -0.04) (σ := 0.35)
    (by norm_num) (by norm_num) (by norm_num) (by norm_num) hc
  exact ⟨p, I, hp, hI⟩

end Verif.Props
