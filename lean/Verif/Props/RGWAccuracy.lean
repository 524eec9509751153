import Verif.Lemmas.RGWValue
import Verif.Props.RGW
import Verif.Props.CBNDAccuracy

/-!
C75: the Roll–Geske–Whaley price against the value of the option it prices.
-/
namespace Verif.Props
open Verif Verif.Py Verif.Spec Real MeasureTheory ProbabilityTheory

/-- The specification dominates the European call and the value of exercising in any case. -/
theorem C75_spec_bounds {x K t td r D σ : ℝ} (hx : 0 < x) (hK : 0 ≤ K) (h0 : 0 ≤ td) (h1 : td ≤ t) :
    bsCall x K t r r σ ≤ dividendCall x K t td r D σ ∧ x - (K - D) * exp (-r * td) ≤ dividendCall x K t td r D σ := by
  have hi := integrable_exDividend (r := r) (D := D) (σ := σ) hx hK h1
  constructor
  · rw [← bsCall_tower (K := K) (r := r) (σ := σ) h0 h1]
    refine mul_le_mul_of_nonneg_left (integral_mono (integrable_bsCall_terminal hx hK h1) hi fun z => ?_) (exp_pos _).le
    exact le_max_right _ _
  · have h2 : Integrable (fun z => terminal x td r σ z + D - K) (gaussianReal 0 1) :=
      ((integrable_terminal _ _ _ _).add (integrable_const D)).sub (integrable_const K)
    have h3 : ∫ z, (terminal x td r σ z + D - K) ∂gaussianReal 0 1 = x * exp (r * td) + D - K := by
      have : ∀ z, terminal x td r σ z + D - K = terminal x td r σ z + (D - K) := fun z => by ring
      simp only [this]
      rw [integral_add (integrable_terminal _ _ _ _) (integrable_const _), integral_terminal h0]
      simp
      ring
    have h4 := mul_le_mul_of_nonneg_left (integral_mono h2 hi fun z => le_max_left _ _) (exp_pos (-r * td)).le
    rw [h3] at h4
    refine le_trans (le_of_eq ?_) h4
    have : exp (-r * td) * exp (r * td) = 1 := by rw [← exp_add]; simp
    linear_combination (-x) * this

/-- **C75, no profitable exercise.** The price is the value of the American call with one dividend, up to the error of
the normal approximation. -/
theorem C75_european (S K t td r D σ : ℝ) (hD : D ≤ K * (1 - exp (-r * (t - td))))
    (hS : 0 < S - D * exp (-r * td)) (hK : 0 < K) (h0 : 0 < td) (h1 : td ≤ t) (hσ : 0 < σ) :
    ∃ x, (∀ y, RGW.Call ⟨S, K, t, td, r, D, some σ⟩ y ↔ y = .ok x) ∧
      |x - dividendCall (S - D * exp (-r * td)) K t td r D σ|
        ≤ 7.5e-8 * ((S - D * exp (-r * td)) + K * exp (-r * t)) := by
  rw [dividendCall_european hS h0.le h1 hD]
  exact C36_accuracy S K t td r D σ hD hS hK (h0.trans_le h1) hσ

theorem gbsCallNum_near {s K τ r σ : ℝ} (hs : 0 < s) (hK : 0 < K) (hτ : 0 < τ) (hσ : 0 < σ) :
    |gbsCallNum s K τ r r σ - bsCall s K τ r r σ| ≤ 7.5e-8 * (s + K * exp (-r * τ)) := by
  obtain ⟨x, hx, he⟩ := C02_price_accuracy ⟨hs, hK, hτ, hσ⟩ r r true
  have h2 : (GBS.new s K τ r r (some σ)).price true = .ok (gbsCallNum s K τ r r σ) := rfl
  rw [h2] at hx
  have : gbsCallNum s K τ r r σ = x := by injection hx
  rw [this]
  simpa [bsPrice] using he

/-- The critical price found by the search makes keeping and exercising nearly equal. -/
theorem critical_gain {S K τ r D σ I : ℝ} (hS : 0 < S) (hK : 0 < K) (hτ : 0 < τ) (hσ : 0 < σ) (hDK : D ≤ K)
    (hn : ∀ n : ℕ, S * 2 ^ n ≠ 100000000) (h : RGW.Search (fun s => gbsCallNum s K τ r r σ) S D K (.ok I)) :
    0 < I ∧ |keepGain K τ r D σ I| ≤ 1e-5 + 7.5e-8 * (I + 1e-5 + K * exp (-r * τ)) := by
  obtain ⟨y, hy, hu, hc⟩ := C35_search (fun s => gbsCallNum s K τ r r σ) hS D K
  rw [← hu _ h] at hc
  have hKe : 0 < K * exp (-r * τ) := by positivity
  rcases hc with hc | ⟨I', hI', hpos, hc⟩
  · cases hc
  cases hI'
  refine ⟨hpos, ?_⟩
  have near : ∀ s, 0 < s → |gbsCallNum s K τ r r σ - s - D + K - keepGain K τ r D σ s| ≤ 7.5e-8 * (s + K * exp (-r * τ)) := by
    intro s hs
    have := gbsCallNum_near (r := r) hs hK hτ hσ
    unfold keepGain
    rwa [show gbsCallNum s K τ r r σ - s - D + K - (bsCall s K τ r r σ - s - D + K)
      = gbsCallNum s K τ r r σ - bsCall s K τ r r σ by ring]
  rcases hc with hc | ⟨lo, hi, l1, l2, l3, l4, l5⟩
  · have n := abs_le.1 (near I hpos)
    have c := abs_le.1 hc
    rw [abs_le]
    norm_num at n c ⊢
    constructor <;> linarith
  · have hhi : 0 < hi := by linarith
    have nh := abs_le.1 (near hi hhi)
    have h5 : gbsCallNum hi K τ r r σ - hi - D + K ≤ 0 := by
      rcases l5 with l5 | ⟨_, n, l5⟩
      · exact l5
      · exact absurd l5 (hn n)
    have u := keepGain_lip (K := K) (r := r) (D := D) (σ := σ) hτ.le l2
    rw [abs_le]
    constructor
    · rcases l4 with rfl | ⟨l4, l6⟩
      · have := bsCall_nonneg I K τ r r σ
        have e : keepGain K τ r D σ I = bsCall I K τ r r σ - I - D + K := rfl
        norm_num at *
        linarith
      · have nl := abs_le.1 (near lo l4)
        have v := keepGain_lip (K := K) (r := r) (D := D) (σ := σ) hτ.le l1
        norm_num at *
        linarith
    · norm_num at *
      linarith

/-- **C75, exercise may be profitable.** If the dividend does not exceed the strike and doubling the spot does not hit
`1e8` exactly, `call()` raises `ValueError` or returns a number that differs from the value of the American call with
one dividend by no more than the tolerance of the critical price search and the errors of the two normal
approximations. -/
theorem C75_exercise (S K t td r D σ : ℝ) (hD : K * (1 - exp (-r * (t - td))) < D) (hDK : D ≤ K) (hS : 0 < S)
    (hx : 0 < S - D * exp (-r * td)) (hK : 0 < K) (h0 : 0 < td) (h1 : td < t) (hσ : 0 < σ)
    (hn : ∀ n : ℕ, S * 2 ^ n ≠ 100000000) :
    ∃ y, (∀ y', RGW.Call ⟨S, K, t, td, r, D, some σ⟩ y' ↔ y' = y) ∧
      (y = .error .valueError ∨ ∃ v I, y = .ok v ∧ 0 < I ∧
        RGW.Search (fun s => gbsCallNum s K (t - td) r r σ) S D K (.ok I) ∧
        |v - dividendCall (S - D * exp (-r * td)) K t td r D σ|
          ≤ exp (-r * td) * (1e-5 + 7.5e-8 * (I + 1e-5 + K * exp (-r * (t - td)))) +
            (3.325e-6 * (S - D * exp (-r * td)) + 3.25e-6 * (K * exp (-r * t)) + 7.5e-8 * ((K - D) * exp (-r * td)))) := by
  obtain ⟨y, hy, hu, hc⟩ := C35_call_total ⟨S, K, t, td, r, D, some σ⟩ hS
  refine ⟨y, fun y' => ⟨fun h => hu y' h, fun h => h ▸ hy⟩, ?_⟩
  rcases hc with ⟨v, rfl⟩ | rfl
  swap
  · exact .inl rfl
  right
  have hcall := hy
  rw [RGW.Call, if_neg (by simpa using hD)] at hcall
  obtain ⟨z, hz, he⟩ := hcall
  cases z with
  | error e => cases he
  | ok I =>
    obtain ⟨hI, hg⟩ := critical_gain hS hK (sub_pos.2 h1) hσ hDK hn hz
    refine ⟨v, I, rfl, hI, hz, ?_⟩
    have ht : 0 < t := h0.trans h1
    have hρ : |(-√(td / t))| < 1 := by
      rw [abs_neg, abs_of_nonneg (sqrt_nonneg _), sqrt_lt' one_pos, one_pow, div_lt_one ht]
      exact h1
    set x := S - D * exp (-r * td) with hxd
    have e1 : (log (x / K) + (r + σ ^ 2 / 2) * t) / (σ * √t) = D1 x K t r σ := by
      unfold D1 GBS.d1Expr; rw [pow_two]
    have e2 : (log (x / I) + (r + σ ^ 2 / 2) * td) / (σ * √td) = D1 x I td r σ := by
      unfold D1 GBS.d1Expr; rw [pow_two]
    obtain ⟨v1, w1, b1⟩ := C74_bivariate_strict 1 (D1 x K t r σ) (-D1 x I td r σ) hρ
    obtain ⟨v2, w2, b2⟩ := C74_bivariate_strict 1 (D1 x K t r σ - σ * √t) (-(D1 x I td r σ - σ * √td)) hρ
    have hv : (RGW.finish ⟨S, K, t, td, r, D, some σ⟩ σ I) = .ok (x * CND (D1 x I td r σ) + x * v1
        - K * exp (-r * t) * v2 - (K - D) * exp (-r * td) * CND (D1 x I td r σ - σ * √td)) := by
      simp only [RGW.finish, ← hxd, e1, e2]
      rw [w1, w2]
      rfl
    have he' : Except.ok v = RGW.finish ⟨S, K, t, td, r, D, some σ⟩ σ I := he
    rw [hv] at he'
    have hveq : v = x * CND (D1 x I td r σ) + x * v1
        - K * exp (-r * t) * v2 - (K - D) * exp (-r * td) * CND (D1 x I td r σ - σ * √td) := by
      injection he'
    have hpol := abs_le.1 (policy_near_optimal (r := r) (D := D) (σ := σ) (I := I) hx hK.le h1.le)
    have hcl := policy_closed (r := r) (D := D) hx hK h0 h1 hσ hI
    have hge := mul_le_mul_of_nonneg_left hg (exp_pos (-r * td)).le
    have c1 := abs_le.1 (CNDError.CND_error (D1 x I td r σ))
    have c2 := abs_le.1 (CNDError.CND_error (D1 x I td r σ - σ * √td))
    rw [abs_le] at b1 b2
    have hKt : 0 ≤ K * exp (-r * t) := by positivity
    have hKD : 0 ≤ (K - D) * exp (-r * td) := mul_nonneg (sub_nonneg.2 hDK) (exp_pos _).le
    have m1 := mul_le_mul_of_nonneg_left c1.1 hx.le
    have m1' := mul_le_mul_of_nonneg_left c1.2 hx.le
    have m2 := mul_le_mul_of_nonneg_left b1.1 hx.le
    have m2' := mul_le_mul_of_nonneg_left b1.2 hx.le
    have m3 := mul_le_mul_of_nonneg_left b2.1 hKt
    have m3' := mul_le_mul_of_nonneg_left b2.2 hKt
    have m4 := mul_le_mul_of_nonneg_left c2.1 hKD
    have m4' := mul_le_mul_of_nonneg_left c2.2 hKD
    rw [hveq]
    generalize exp (-r * td) * (1e-5 + 7.5e-8 * (I + 1e-5 + K * exp (-r * (t - td)))) = B at *
    generalize exp (-r * td) * |keepGain K (t - td) r D σ I| = A at *
    generalize policyValue x K t td r D σ I = P at *
    generalize dividendCall x K t td r D σ = V at *
    rw [abs_le]
    norm_num at *
    constructor <;> linarith

/-- Non-vacuous: a textbook parameter set meets the hypotheses of `C75_exercise`. -/
theorem C75_example : (82 : ℝ) * (1 - exp (-0.06 * (1 / 3 - 1 / 4))) < 4 ∧ (4 : ℝ) ≤ 82 ∧
    (0 : ℝ) < 80 - 4 * exp (-0.06 * (1 / 4)) ∧ ∀ n : ℕ, (80 : ℝ) * 2 ^ n ≠ 100000000 := by
  refine ⟨?_, by norm_num, ?_, ?_⟩
  · have := add_one_le_exp (-0.06 * (1 / 3 - 1 / 4) : ℝ)
    norm_num at this ⊢
    linarith
  · have : exp (-0.06 * (1 / 4) : ℝ) ≤ 1 := exp_le_one_iff.2 (by norm_num)
    linarith
  · intro n h
    have h' : 80 * 2 ^ n = 100000000 := by exact_mod_cast h
    have : 2 ^ n = 1250000 := by omega
    rcases le_or_gt 21 n with hn | hn
    · have := Nat.pow_le_pow_right (n := 2) (by norm_num) hn
      omega
    · interval_cases n <;> omega

end Verif.Props
