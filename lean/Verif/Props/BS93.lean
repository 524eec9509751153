import Verif.Model.American
import Verif.Lemmas.Loop
import Verif.Props.GBSAlgebra

/-!
C39, C40, C59, C60: the Bjerksund–Stensland approximation.
-/
namespace Verif.Props
open Verif Real

/-- `β` is the root above one of `½σ²β(β-1) + bβ = r`. -/
theorem bs_beta {r b σ : ℝ} (hσ : 0 < σ) (hb : b < r) :
    1 < BS93.beta r b σ ∧ 1 / 2 * σ ^ 2 * BS93.beta r b σ * (BS93.beta r b σ - 1) + b * BS93.beta r b σ = r := by
  have hσ2 : 0 < σ ^ 2 := by positivity
  set c := b / σ ^ 2 with hc
  set ρ := r / σ ^ 2 with hρ
  have hlt : c < ρ := div_lt_div_of_pos_right hb hσ2
  have e : BS93.beta r b σ = (1 / 2 - c) + √((c - 1 / 2) ^ 2 + 2 * ρ) := by
    rw [BS93.beta, ← hc, mul_div_assoc, ← hρ]
  have hrad : (c + 1 / 2) ^ 2 < (c - 1 / 2) ^ 2 + 2 * ρ := by nlinarith
  have hrad0 : 0 ≤ (c - 1 / 2) ^ 2 + 2 * ρ := (sq_nonneg _).trans hrad.le
  have hsq := Real.sq_sqrt hrad0
  have h1 : c + 1 / 2 < √((c - 1 / 2) ^ 2 + 2 * ρ) := Real.lt_sqrt_of_sq_lt hrad
  refine ⟨by rw [e]; linarith, ?_⟩
  have eb : b = σ ^ 2 * c := by rw [hc]; field_simp
  have er : r = σ ^ 2 * ρ := by rw [hρ]; field_simp
  rw [e, eb, er]
  linear_combination (σ ^ 2 / 2) * hsq

/-- The perpetual boundary lies above the boundary at expiry, which lies at or above the strike. -/
theorem bs_bounds {X r b σ : ℝ} (hX : 0 < X) (hσ : 0 < σ) (hb : b < r) :
    X ≤ max X (r / (r - b) * X) ∧
    max X (r / (r - b) * X) < BS93.beta r b σ / (BS93.beta r b σ - 1) * X := by
  obtain ⟨h1, h2⟩ := bs_beta hσ hb
  set β := BS93.beta r b σ
  refine ⟨le_max_left _ _, max_lt ?_ ?_⟩
  · have : 1 < β / (β - 1) := by rw [lt_div_iff₀ (by linarith)]; linarith
    nlinarith
  · refine mul_lt_mul_of_pos_right ?_ hX
    have h3 : 0 < r - b * β := by
      have : 0 < 1 / 2 * σ ^ 2 * β * (β - 1) := by
        have : 0 < β - 1 := by linarith
        positivity
      linarith
    rw [div_lt_div_iff₀ (by linarith) (by linarith)]
    nlinarith

/-- **C40, part that holds.** If `b T + 2σ√T ≥ 0` (in particular for `b ≥ 0`), the trigger is between the strike and
the perpetual boundary; so a call that is exercised is worth `S - K ≥ 0`. Missing: `b T + 2σ√T < 0`, where
the claim is false, see `C40_negative_price`. -/
theorem C40_trigger_partial {X T r b σ : ℝ} (hX : 0 < X) (hσ : 0 < σ) (hb : b < r)
    (h : 0 ≤ b * T + 2 * σ * √T) :
    X ≤ BS93.trigger X T r b σ ∧ BS93.trigger X T r b σ < BS93.beta r b σ / (BS93.beta r b σ - 1) * X := by
  obtain ⟨h1, h2⟩ := bs_bounds hX hσ hb
  rw [BS93.trigger]
  set B0 := max X (r / (r - b) * X)
  set BI := BS93.beta r b σ / (BS93.beta r b σ - 1) * X
  have hB : 0 < B0 := hX.trans_le h1
  have hd : 0 < BI - B0 := by linarith
  have hht : -(b * T + 2 * σ * √T) * B0 / (BI - B0) ≤ 0 := by
    apply div_nonpos_of_nonpos_of_nonneg _ hd.le
    nlinarith
  have he := exp_le_one_iff.2 hht
  have he0 := exp_pos (-(b * T + 2 * σ * √T) * B0 / (BI - B0))
  constructor <;> nlinarith

/-- **C40, consequence.** Under the same condition `call()` returns a trigger at or above the strike, and if it
exercises (`S` at or above the trigger) the price is `S - K` and not negative. -/
theorem C40_exercise_partial {S K T r b σ : ℝ} (hK : 0 < K) (hσ : 0 < σ) (hb : b < r)
    (h : 0 ≤ b * T + 2 * σ * √T) :
    ∃ p I, BS93.call ⟨S, K, T, r, b, some σ⟩ = .ok (p, some I) ∧ K ≤ I ∧ (I ≤ S → p = S - K ∧ 0 ≤ p) := by
  have hI := (C40_trigger_partial hK hσ hb h).1
  simp only [BS93.call, BS93.approx, ge_iff_le, if_neg (not_le.2 hb)]
  by_cases hS : BS93.trigger K T r b σ ≤ S
  · rw [if_pos hS]
    exact ⟨_, _, rfl, hI, fun _ => ⟨rfl, by linarith⟩⟩
  · rw [if_neg hS]
    exact ⟨_, _, rfl, hI, fun k => absurd k hS⟩

/-- **C40 fails** for a strongly negative cost of carry: at `S = 1`, `K = 2`, `t = 1`, `r = 0`, `b = -4`, `σ = 1` the
trigger is negative and `call()` returns the price `-1`. -/
theorem C40_negative_price : ∃ I, BS93.call ⟨1, 2, 1, 0, -4, some 1⟩ = .ok (-1, some I) ∧ I < 0 := by
  have hβ : BS93.beta 0 (-4) 1 = 9 := by
    rw [BS93.beta, show ((-4 : ℝ) / 1 ^ 2 - 1 / 2) ^ 2 + 2 * 0 / 1 ^ 2 = (9 / 2) ^ 2 by norm_num,
      Real.sqrt_sq (by norm_num)]
    norm_num
  have hI : BS93.trigger 2 1 0 (-4) 1 = 2 + 1 / 4 * (1 - exp 16) := by
    simp only [BS93.trigger, hβ]
    norm_num
  have h16 : (17 : ℝ) ≤ exp 16 := by
    have := add_one_le_exp (16 : ℝ)
    linarith
  have hneg : BS93.trigger 2 1 0 (-4) 1 < 0 := by rw [hI]; linarith
  refine ⟨_, ?_, hneg⟩
  simp only [BS93.call, BS93.approx]
  rw [if_neg (by norm_num), if_pos (by linarith)]
  norm_num

/-- **C40, exactly.** The trigger is at or above the strike if and only if `b T + 2σ√T ≥ 0`; otherwise it is below, and `call()`
returns the negative number `S - K` for every spot from the trigger to the strike. -/
theorem C40_iff {X T r b σ : ℝ} (hX : 0 < X) (hT : 0 ≤ T) (hσ : 0 < σ) (hb : b < r) :
    (X ≤ BS93.trigger X T r b σ ↔ 0 ≤ b * T + 2 * σ * √T) ∧
    (b * T + 2 * σ * √T < 0 ↔
      ∃ S > 0, ∃ p I, BS93.call ⟨S, X, T, r, b, some σ⟩ = .ok (p, some I) ∧ I ≤ S ∧ p = S - X ∧ p < 0) := by
  have key : b * T + 2 * σ * √T < 0 → BS93.trigger X T r b σ < X := by
    intro h
    have hb0 : b ≤ 0 := by
      by_contra hc
      have : 0 ≤ b * T := mul_nonneg (not_le.1 hc).le hT
      have : 0 ≤ 2 * σ * √T := by positivity
      linarith
    have hB0 : max X (r / (r - b) * X) = X := by
      refine max_eq_left ?_
      have : r / (r - b) ≤ 1 := by rw [div_le_one (by linarith)]; linarith
      nlinarith
    have h2 := (bs_bounds (b := b) hX hσ hb).2
    rw [BS93.trigger]
    simp only [hB0] at h2 ⊢
    generalize BS93.beta r b σ / (BS93.beta r b σ - 1) * X = BI at h2 ⊢
    have hht : 0 < -(b * T + 2 * σ * √T) * X / (BI - X) := by
      have : 0 < BI - X := by linarith
      have : 0 < -(b * T + 2 * σ * √T) := by linarith
      positivity
    have he := one_lt_exp_iff.2 hht
    have : 0 < BI - X := by linarith
    nlinarith
  refine ⟨⟨fun h => ?_, fun h => (C40_trigger_partial hX hσ hb h).1⟩, fun h => ?_, fun ⟨S, hS, p, I, h1, h2, h3, h4⟩ => ?_⟩
  · by_contra hc
    exact absurd h (not_le.2 (key (not_le.1 hc)))
  · have hI := key h
    obtain ⟨S, hS1, hS2⟩ := exists_between (max_lt hI hX)
    have hS1' := (le_max_left _ _).trans hS1.le
    refine ⟨S, (le_max_right _ _).trans_lt hS1, S - X, BS93.trigger X T r b σ, ?_, hS1', rfl, by linarith⟩
    simp only [BS93.call, BS93.approx]
    rw [if_neg (not_le.2 hb), if_pos hS1']
  · by_contra hc
    obtain ⟨p', I', h5, h6, -⟩ := C40_exercise_partial (S := S) hX hσ hb (not_lt.1 hc)
    rw [h5] at h1
    injection h1 with h1
    injection h1 with h7 h8
    injection h8 with h8
    linarith

/-- Non-vacuous: ordinary parameters satisfy the condition. -/
theorem C40_example : ∃ p I, BS93.call ⟨42, 40, 0.75, 0.04, -0.04, some 0.35⟩ = .ok (p, some I) ∧ 40 ≤ I := by
  have h : (0 : ℝ) ≤ -0.04 * 0.75 + 2 * 0.35 * √0.75 := by
    have : (0.5 : ℝ) ≤ √0.75 := Real.le_sqrt_of_sq_le (by norm_num)
    norm_num at *; linarith
  obtain ⟨p, I, h1, h2, -⟩ := C40_exercise_partial (S := 42) (K := 40) (T := 0.75) (r := 0.04) (b := -0.04)
    (σ := 0.35) (by norm_num) (by norm_num) (by norm_num) h
  exact ⟨p, I, h1, h2⟩

/-- **C39.** Value matching: the formula used below a positive trigger `I`, evaluated at `S = I`, is exactly the
exercise value `I - K`. -/
theorem C39_value_matching {X T r b σ : ℝ} (hI : 0 < BS93.trigger X T r b σ) :
    BS93.below (BS93.trigger X T r b σ) X T r b σ (BS93.trigger X T r b σ) = BS93.trigger X T r b σ - X := by
  set I := BS93.trigger X T r b σ
  have hphi : ∀ γ H, BS93.phi I T γ H I r b σ = 0 := by
    intro γ H
    simp only [BS93.phi, div_self hI.ne', one_rpow, log_one, mul_zero, zero_div, sub_zero, one_mul, sub_self]
  simp only [BS93.below, hphi, mul_zero, sub_zero, add_zero]
  rw [mul_assoc, ← rpow_add hI, neg_add_cancel, rpow_zero, mul_one]

/-- **C39.** The formula is what `call()` returns below the trigger, and the exercise value what it returns from
the trigger on. -/
theorem C39_call {S K T r b σ : ℝ} (hb : b < r) :
    (S < BS93.trigger K T r b σ → BS93.call ⟨S, K, T, r, b, some σ⟩
      = .ok (BS93.below S K T r b σ (BS93.trigger K T r b σ), some (BS93.trigger K T r b σ))) ∧
    (BS93.trigger K T r b σ ≤ S → BS93.call ⟨S, K, T, r, b, some σ⟩
      = .ok (S - K, some (BS93.trigger K T r b σ))) := by
  simp only [BS93.call, BS93.approx, ge_iff_le, if_neg (not_le.2 hb)]
  exact ⟨fun h => by rw [if_neg (not_le.2 h)], fun h => by rw [if_pos h]⟩

/-- **C39.** Put–call transformation: the put on `(S, K, r, b)` is the call on `(K, S, r-b, -b)`. -/
theorem C39_put_is_call (o : Amer) :
    BS93.put o = BS93.call ⟨o.K, o.S, o.t, o.r - o.b, -o.b, o.sigma⟩ := rfl

/-- **C39.** With `b ≥ r` the call is European and no trigger is reported. -/
theorem C39_call_european (o : Amer) (h : o.r ≤ o.b) :
    BS93.call o = (do return ((← (GBS.new o.S o.K o.t o.r o.b o.sigma).call), none)) := by
  simp only [BS93.call, BS93.approx, ge_iff_le, if_pos h]

/-- **C39.** With `r ≤ 0` the put is the European put and no trigger is reported. -/
theorem C39_put_european {S K t r b σ : ℝ} (hS : 0 < S) (hK : 0 < K) (ht : 0 < t) (hσ : 0 < σ) (hr : r ≤ 0) :
    ∃ p, (GBS.new S K t r b (some σ)).put = .ok p ∧ BS93.put ⟨S, K, t, r, b, some σ⟩ = .ok (p, none) := by
  obtain ⟨p, h1, h2⟩ := C05_duality S K t r b σ hS hK ht hσ
  refine ⟨p, h1, ?_⟩
  rw [BS93.put, BS93.approx, if_pos (by simp only; linarith), h2]
  rfl

/-- Non-vacuous: the trigger is positive at ordinary parameters. -/
theorem C39_example : 0 < BS93.trigger 40 0.75 0.04 (-0.04) 0.35 := by
  have h : (0 : ℝ) ≤ -0.04 * 0.75 + 2 * 0.35 * √0.75 := by
    have : (0.5 : ℝ) ≤ √0.75 := Real.le_sqrt_of_sq_le (by norm_num)
    norm_num at *; linarith
  have := (C40_trigger_partial (X := 40) (T := 0.75) (r := 0.04) (b := -0.04) (σ := 0.35) (by norm_num)
    (by norm_num) (by norm_num) h).1
  linarith

/-- The trigger is proportional to the strike. -/
theorem bs_trigger_scale (X T r b σ l : ℝ) (hl : 0 < l) :
    BS93.trigger (l * X) T r b σ = l * BS93.trigger X T r b σ := by
  have e : max (l * X) (r / (r - b) * (l * X)) = l * max X (r / (r - b) * X) := by
    rw [mul_max_of_nonneg _ _ hl.le]; ring_nf
  simp only [BS93.trigger, e]
  set B0 := max X (r / (r - b) * X)
  set q := BS93.beta r b σ / (BS93.beta r b σ - 1)
  have e2 : -(b * T + 2 * σ * √T) * (l * B0) / (q * (l * X) - l * B0)
      = -(b * T + 2 * σ * √T) * B0 / (q * X - B0) := by
    rw [show q * (l * X) - l * B0 = l * (q * X - B0) by ring,
      show -(b * T + 2 * σ * √T) * (l * B0) = l * (-(b * T + 2 * σ * √T) * B0) by ring,
      mul_div_mul_left _ _ hl.ne']
  rw [e2]; ring

theorem bs_phi_scale (S T γ H I r b σ l : ℝ) (hl : 0 < l) (hS : 0 < S) :
    BS93.phi (l * S) T γ (l * H) (l * I) r b σ = l ^ γ * BS93.phi S T γ H I r b σ := by
  simp only [BS93.phi, mul_div_mul_left _ _ hl.ne', mul_rpow hl.le hS.le]
  ring

/-- **C60.** Scaling spot and strike by `l > 0` scales option and trigger price by `l` (with a positive trigger), for the
helper shared by calls and puts; `call()` and `put()` themselves are in `C60_call` and `C60_put`. -/
theorem C60_homogeneous {S X T r b σ l : ℝ} (hl : 0 < l) (hS : 0 < S)
    (hI : b < r → 0 < BS93.trigger X T r b σ) :
    ∃ p q, BS93.approx S X T r b (some σ) = .ok (p, q) ∧
      BS93.approx (l * S) (l * X) T r b (some σ) = .ok (l * p, q.map (l * ·)) := by
  simp only [BS93.approx]
  by_cases hb : b ≥ r
  · simp only [if_pos hb]
    obtain ⟨x, y, h1, h2, h3⟩ := C05_homogeneous S X T r b σ l true hl
    simp only [GBS.price, if_true] at h1 h2
    rw [h1, h2, h3]
    exact ⟨y, none, rfl, rfl⟩
  · simp only [if_neg hb, bs_trigger_scale X T r b σ l hl]
    have hI' := hI (not_le.1 hb)
    set I := BS93.trigger X T r b σ
    by_cases hSI : S ≥ I
    · rw [if_pos hSI, if_pos (mul_le_mul_of_nonneg_left hSI hl.le)]
      exact ⟨_, _, rfl, by simp only [mul_sub, Option.map_some]⟩
    · rw [if_neg hSI, if_neg (by
        intro k; exact hSI (le_of_mul_le_mul_left k hl))]
      refine ⟨_, _, rfl, ?_⟩
      simp only [BS93.below, bs_phi_scale _ _ _ _ _ _ _ _ _ hl hS, Option.map_some]
      have e1 : (l * I) ^ (-BS93.beta r b σ) * (l * S) ^ BS93.beta r b σ
          = I ^ (-BS93.beta r b σ) * S ^ BS93.beta r b σ := by
        rw [mul_rpow hl.le hI'.le, mul_rpow hl.le hS.le, rpow_neg hl.le]
        have := (rpow_pos_of_pos hl (BS93.beta r b σ)).ne'
        field_simp
      have e2 : (l * I) ^ (-BS93.beta r b σ) * l ^ BS93.beta r b σ = I ^ (-BS93.beta r b σ) := by
        rw [mul_rpow hl.le hI'.le, rpow_neg hl.le]
        have := (rpow_pos_of_pos hl (BS93.beta r b σ)).ne'
        field_simp
      rw [rpow_one, rpow_zero]
      congr 2
      linear_combination (l * I - l * X) * e1 - (l * I - l * X) * BS93.phi S T (BS93.beta r b σ) I I r b σ * e2

/-- **C59.** The put's boundary. Let `κ` be the trigger of the transformed call with unit strike (positive). The put
is exercised exactly when `S ≤ K/κ`; the trigger it reports is `κ S`: a level for the strike that moves
with the spot, not the stock price at which the put is exercised. -/
theorem C59_put_trigger {S K t r b σ : ℝ} (hS : 0 < S) (hr : 0 < r)
    (hκ : 0 < BS93.trigger 1 t (r - b) (-b) σ) :
    ∃ p, BS93.put ⟨S, K, t, r, b, some σ⟩ = .ok (p, some (BS93.trigger 1 t (r - b) (-b) σ * S)) ∧
      (S ≤ K / BS93.trigger 1 t (r - b) (-b) σ → p = K - S) ∧
      (K / BS93.trigger 1 t (r - b) (-b) σ < S →
        p = BS93.below K S t (r - b) (-b) σ (BS93.trigger 1 t (r - b) (-b) σ * S)) := by
  have e := bs_trigger_scale 1 t (r - b) (-b) σ S hS
  rw [mul_one, mul_comm] at e
  simp only [BS93.put, BS93.approx, e]
  rw [if_neg (by linarith)]
  simp only [le_div_iff₀ hκ, div_lt_iff₀ hκ]
  by_cases h : K ≥ BS93.trigger 1 t (r - b) (-b) σ * S
  · rw [if_pos h]
    exact ⟨_, rfl, fun _ => rfl, fun k => by linarith⟩
  · rw [if_neg h]
    exact ⟨_, rfl, fun k => absurd (by linarith) h, fun _ => rfl⟩

/-- With `b t ≤ 2σ√t` the factor `κ` is at least one, so the put's reported trigger is never below the spot,
while the put is exercised at spots at or below the strike only. -/
theorem C59_put_boundary {t r b σ : ℝ} (hσ : 0 < σ) (hr : 0 < r) (h : b * t ≤ 2 * σ * √t) :
    1 ≤ BS93.trigger 1 t (r - b) (-b) σ :=
  (C40_trigger_partial one_pos hσ (by linarith) (by linarith)).1

end Verif.Props
