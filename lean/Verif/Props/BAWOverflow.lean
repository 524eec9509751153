import Verif.Props.BAWFloat
import Verif.Model.BAWOverflow
import Mathlib.Analysis.Complex.ExponentialBounds

/-!
# C117: overflow in the search of the Barone-Adesi–Whaley put

The seed of the search contains `exp((b t - 2σ√t)·(1 - q))`, `q` the negative root of the perpetual put. For a low
volatility and a long maturity this overflows to infinity, the first test of the search compares with `nan`, the
search ends at infinity, and `put()` returns `K - S` for every spot.
-/
namespace Verif.Props
open Real Verif.Spec QuadApprox
open Fl (num)

/-- The argument of the exponential in the seed. -/
theorem seedPutD_eq {K t r b σ : ℝ} (hK : 0 < K) (ht : 0 < t) (hσ : 0 < σ) (hr : 0 ≤ r) (hq : q1u r b σ < 0) :
    ∃ s d : ℝ, 0 < d ∧ BAWFloat.seedPutD (num K) (num t) (num r) (num b) (num σ)
        = num s + num d * Fl.expD (num ((b * t - 2 * σ * √t) * (1 - q1u r b σ))) ∧
      BAWFloat.seedPut (num K) (num t) (num r) (num b) (num σ)
        = num s + num d * Fl.exp (num ((b * t - 2 * σ * √t) * (1 - q1u r b σ))) := by
  have hm : 0 ≤ BAW.m r σ := by unfold BAW.m; positivity
  have h : 0 ≤ (BAW.n b σ - 1) ^ 2 + 4 * BAW.m r σ := by positivity
  have hi : 1 / q1u r b σ < 0 := one_div_neg.2 hq
  have h1 : 0 < 1 - 1 / q1u r b σ := by linarith
  have hD : 0 < K - K / (1 - 1 / q1u r b σ) := by
    rw [sub_pos, div_lt_iff₀ h1]; nlinarith
  have hq0 : (-(BAW.n b σ - 1) - √((BAW.n b σ - 1) ^ 2 + 4 * BAW.m r σ)) / 2 ≠ 0 := hq.ne
  have h1' : 1 - 1 / ((-(BAW.n b σ - 1) - √((BAW.n b σ - 1) ^ 2 + 4 * BAW.m r σ)) / 2) ≠ 0 := h1.ne'
  have hD' : K - K / (1 - 1 / ((-(BAW.n b σ - 1) - √((BAW.n b σ - 1) ^ 2 + 4 * BAW.m r σ)) / 2)) ≠ 0 := hD.ne'
  have e : (b * t - 2 * σ * √t) * K / (K - K / (1 - 1 / q1u r b σ)) = (b * t - 2 * σ * √t) * (1 - q1u r b σ) := by
    have hqn := hq.ne
    have h2 : q1u r b σ - 1 ≠ 0 := by linarith
    have h3 : K - K / (1 - 1 / q1u r b σ) = K / (1 - q1u r b σ) := by
      have h4 : 1 - q1u r b σ ≠ 0 := by linarith
      have h5 : 1 - 1 / q1u r b σ = (q1u r b σ - 1) / q1u r b σ := by field_simp
      rw [h5]
      field_simp
      ring
    have h4 : 1 - q1u r b σ ≠ 0 := by linarith
    rw [h3]
    field_simp
  refine ⟨K / (1 - 1 / q1u r b σ), _, hD, ?_, ?_⟩ <;> rw [← e]
  · simp only [BAWFloat.seedPutD, fl_n hσ, fl_m hσ, Fl.two_eq, Fl.one_eq, Fl.four_eq, Fl.num_mul, Fl.num_pow, Fl.num_neg,
      Fl.num_sub, Fl.num_add, Fl.num_sqrt h, Fl.num_sqrt ht.le, Fl.num_div _ (two_ne_zero : (2 : ℝ) ≠ 0), Fl.num_div _ hq0,
      Fl.num_div _ h1', Fl.num_div _ hD']
    rfl
  · simp only [BAWFloat.seedPut, fl_n hσ, fl_m hσ, Fl.two_eq, Fl.one_eq, Fl.four_eq, Fl.num_mul, Fl.num_pow, Fl.num_neg,
      Fl.num_sub, Fl.num_add, Fl.num_sqrt h, Fl.num_sqrt ht.le, Fl.num_div _ (two_ne_zero : (2 : ℝ) ≠ 0), Fl.num_div _ hq0,
      Fl.num_div _ h1', Fl.num_div _ hD']
    rfl

/-- At an infinite critical price the right side of the search is `nan`. -/
theorem rhsPut_pinf {K t r b σ : ℝ} (hK : 0 < K) (ht : 0 < t) (hσ : 0 < σ) :
    BAWFloat.rhsPut (num K) (num t) (num r) (num b) (num σ) .pinf = .nan := by
  have hv : 0 < (σ * √t)⁻¹ := by positivity
  have e1 : Fl.pinf / num K = .pinf := by
    show Fl.mul .pinf (Fl.inv (num K)) = _
    rw [Fl.inv, if_neg hK.ne', Fl.mul, Fl.signed, if_pos (inv_pos.2 hK)]
  have e2 : Fl.pinf / num (σ * √t) = .pinf := by
    show Fl.mul .pinf (Fl.inv (num (σ * √t))) = _
    rw [Fl.inv, if_neg (by positivity), Fl.mul, Fl.signed, if_pos hv]
  have hd : Fl.gbsD1 .pinf (num K) (num t) (num b) (num σ) = .pinf := by
    simp only [Fl.gbsD1, e1, Fl.num_sqrt ht.le, Fl.num_mul, Fl.two_eq, Fl.num_div _ (two_ne_zero : (2 : ℝ) ≠ 0), Fl.num_add]
    show Fl.pinf / num (σ * √t) = _
    exact e2
  have e3 : Fl.pinf * num (exp ((b - r) * t)) = .pinf := by
    show Fl.signed _ = _
    rw [Fl.signed, if_pos (exp_pos _)]
  have e4 : Fl.pinf * num 0 = .nan := by
    show Fl.signed 0 = _
    simp [Fl.signed]
  have hp : Fl.gbsPut .pinf (num K) (num t) (num r) (num b) (num σ) = .nan := by
    have e5 : -Fl.pinf = .ninf := rfl
    simp only [Fl.gbsPut, hd, e5, Fl.CND_ninf, Fl.num_sub, Fl.num_mul, Fl.num_exp, e3, e4, Fl.sub_nan]
  rw [BAWFloat.rhsPut, hp, Fl.nan_sub]

/-- **C117 fails when the seed overflows.** If the exact value of the exponential in the seed is at least the largest
double (rounded up), then `put()` returns `K - S` whatever the spot, a negative number for `S > K`. -/
theorem C117_put_overflow {S K t r b σ : ℝ} (hK : 0 < K) (ht : 0 < t) (hσ : 0 < σ) (hr : 0 < r)
    (h : 2 ^ 1024 - 2 ^ 970 ≤ exp ((b * t - 2 * σ * √t) * (1 - q1u r b σ))) (x : Fl) :
    BAWFloat.PutD S K t r b σ x ↔ x = num (K - S) := by
  obtain ⟨s, d, hd, e, -⟩ := seedPutD_eq (b := b) hK ht hσ hr.le (q1u_neg hσ hr)
  have he : BAWFloat.seedPutD (num K) (num t) (num r) (num b) (num σ) = .pinf := by
    rw [e, Fl.expD, if_neg (not_lt.2 h)]
    show num s + Fl.signed d = _
    rw [Fl.signed, if_pos hd]
    rfl
  rw [BAWFloat.PutD, he]
  have hlt : ¬ Fl.lt .pinf (num S) := id
  simp only [newtonPut_nan (rhsPut_pinf hK ht hσ), exists_eq_left, hlt, false_and, not_false_eq_true, true_and, false_or,
    Fl.num_sub]

/-- A condition on the parameters alone: it is enough that `(b t - 2σ√t)·2b/σ² ≥ 710`. -/
theorem C117_put_overflow_region {S K t r b σ : ℝ} (hK : 0 < K) (ht : 0 < t) (hσ : 0 < σ) (hr : 0 < r)
    (hb : 0 ≤ b * t - 2 * σ * √t) (h : 710 ≤ (b * t - 2 * σ * √t) * (2 * b / σ ^ 2)) (x : Fl) :
    BAWFloat.PutD S K t r b σ x ↔ x = num (K - S) := by
  refine C117_put_overflow hK ht hσ hr ?_ x
  have hq : 2 * b / σ ^ 2 ≤ 1 - q1u r b σ := by
    have hm : 0 ≤ BAW.m r σ := by unfold BAW.m; positivity
    have h1 : BAW.n b σ - 1 ≤ √((BAW.n b σ - 1) ^ 2 + 4 * BAW.m r σ) :=
      (le_abs_self _).trans (abs_le_sqrt (by linarith))
    have h2 : BAW.n b σ = 2 * b / σ ^ 2 := rfl
    unfold q1u
    linarith
  have h1 : (710 : ℝ) ≤ (b * t - 2 * σ * √t) * (1 - q1u r b σ) := h.trans (mul_le_mul_of_nonneg_left hq hb)
  have h2 : (2 : ℝ) ^ 1024 ≤ exp 710 := by
    have hl := log_two_lt_d9
    rw [← exp_log (by positivity : (0 : ℝ) < 2 ^ 1024), exp_le_exp, log_pow]
    push_cast
    linarith
  have h3 := exp_le_exp.2 h1
  exact (sub_le_self _ (by positivity)).trans (h2.trans h3)

/-- **C117, part that holds.** While the exponential does not overflow, `put()` is the one of `Model/BAWFloat`; so for
`b ≤ r`, whenever it returns, it returns a number near the value of the quadratic approximation.
Missing: seeds that overflow, where the claim is false, see `C117_put_overflow`. -/
theorem C117_put_partial {S K t r b σ : ℝ} (hS : 0 < S) (hK : 0 < K) (ht : 0 < t) (hσ : 0 < σ) (hr : 0 < r)
    (h : exp ((b * t - 2 * σ * √t) * (1 - q1u r b σ)) < 2 ^ 1024 - 2 ^ 970) {x : Fl} :
    (BAWFloat.PutD S K t r b σ x ↔ BAWFloat.Put S K t r b σ x) ∧
    (b ≤ r → BAWFloat.PutD S K t r b σ x → ∀ Q A Sx, IsQuadApprox false K t r b σ Q A Sx → ∃ p Sk, x = num p ∧ 0 < Sk ∧
      |p - quadValue false K t r b σ Q A Sx S|
        ≤ (1 + lip t r b σ Q) * |Sk - Sx| + searchErr K t r b Q Sk + eurErr K t r b S + premErr t r b Q Sk) := by
  have key : BAWFloat.PutD S K t r b σ x ↔ BAWFloat.Put S K t r b σ x := by
    obtain ⟨s, d, hd, e, e'⟩ := seedPutD_eq (b := b) hK ht hσ hr.le (q1u_neg hσ hr)
    rw [BAWFloat.PutD, BAWFloat.Put, e, e', Fl.expD, if_pos h]
    rfl
  refine ⟨key, fun hb hx Q A Sx hQ => ?_⟩
  obtain ⟨p, Sk, h1, h2, -, h3⟩ := C91_put_partial hS hK ht hσ hr hb (key.1 hx) hQ
  exact ⟨p, Sk, h1, h2, h3⟩

/-- A five-year put on an asset with 1% volatility at `r = b = 10%`, spot 120, strike 100, is priced at minus 20; an
ordinary contract (20% volatility, one year, `r = b = 5%`) does not overflow. -/
theorem C117_example :
    BAWFloat.PutD 120 100 5 0.1 0.1 0.01 (num (-20)) ∧
    exp ((0.05 * 1 - 2 * 0.2 * √1) * (1 - q1u 0.05 0.05 0.2)) < 2 ^ 1024 - 2 ^ 970 := by
  constructor
  · have h5 : √(5 : ℝ) ≤ 2.5 := by rw [sqrt_le_left (by norm_num)]; norm_num
    refine (C117_put_overflow_region (by norm_num) (by norm_num) (by norm_num) (by norm_num) ?_ ?_ _).2 (by norm_num)
    · linarith
    · have e : (2 * 0.1 / 0.01 ^ 2 : ℝ) = 2000 := by norm_num
      rw [e]; linarith
  · have hq := q1u_neg (r := 0.05) (b := 0.05) (σ := 0.2) (by norm_num) (by norm_num)
    have h1 : exp ((0.05 * 1 - 2 * 0.2 * √1) * (1 - q1u 0.05 0.05 0.2)) ≤ 1 := by
      rw [exp_le_one_iff, sqrt_one]
      exact mul_nonpos_of_nonpos_of_nonneg (by norm_num) (by linarith)
    refine h1.trans_lt ?_
    have h2 : (2 : ℝ) ^ 1024 = 2 ^ 970 * 2 ^ 54 := (pow_add 2 970 54)
    have h3 : (1 : ℝ) ≤ 2 ^ 970 := one_le_pow₀ (by norm_num)
    rw [h2]
    clear h2
    generalize (2 : ℝ) ^ 970 = y at *
    norm_num
    linarith

end Verif.Props
