import Verif.Props.BAWAccuracy
import Verif.Lemmas.Fl

/-!
# C91: Barone-Adesi–Whaley with `nan` and infinities

`Model/BAWFloat` computes with `nan` as numpy does.  Here: for which options the pricing method returns a number near
the quadratic approximation, and what it returns for the others.
-/
namespace Verif.Props
open Real Verif.Spec QuadApprox
open Fl (num)

section pieces
variable {K t r b σ s : ℝ}

theorem fl_n (hσ : 0 < σ) : BAWFloat.n (num b) (num σ) = num (BAW.n b σ) := by
  rw [BAWFloat.n, Fl.two_eq, Fl.num_mul, Fl.num_pow, Fl.num_div _ (by positivity)]; rfl

theorem fl_m (hσ : 0 < σ) : BAWFloat.m (num r) (num σ) = num (BAW.m r σ) := by
  rw [BAWFloat.m, Fl.two_eq, Fl.num_mul, Fl.num_pow, Fl.num_div _ (by positivity)]; rfl

theorem fl_X (ht : 0 < t) (hσ : 0 < σ) (hr : r ≠ 0) : BAWFloat.X (num t) (num r) (num σ) = num (BAW.X t r σ) := by
  have h : σ ^ 2 * (1 - exp (-r * t)) ≠ 0 := by
    refine mul_ne_zero (by positivity) (sub_ne_zero.2 (Ne.symm ?_))
    rw [Ne, exp_eq_one_iff]
    exact mul_ne_zero (neg_ne_zero.2 hr) ht.ne'
  simp only [BAWFloat.X, Fl.two_eq, Fl.one_eq, Fl.num_mul, Fl.num_pow, Fl.num_neg, Fl.num_exp, Fl.num_sub]
  rw [Fl.num_div _ h]; rfl

theorem fl_X_zero : BAWFloat.X (num t) (num 0) (num σ) = .nan := by
  simp only [BAWFloat.X, Fl.two_eq, Fl.one_eq, Fl.num_mul, Fl.num_pow, Fl.num_neg, Fl.num_exp, Fl.num_sub, neg_zero,
    zero_mul, exp_zero, sub_self, mul_zero]
  show Fl.mul (num 0) (Fl.inv (num 0)) = _
  rw [Fl.inv, if_pos rfl, Fl.mul, Fl.signed, if_neg (lt_irrefl _), if_neg (lt_irrefl _)]

theorem fl_Q2 (ht : 0 < t) (hσ : 0 < σ) (hr : 0 < r) :
    BAWFloat.Q2 (num t) (num r) (num b) (num σ) = num (BAW.Q2 t r b σ) := by
  have hX := baw_X_pos ht hσ hr
  have h : 0 ≤ (BAW.n b σ - 1) ^ 2 + 4 * BAW.X t r σ := by positivity
  simp only [BAWFloat.Q2, fl_n hσ, fl_X ht hσ hr.ne', Fl.two_eq, Fl.one_eq, Fl.four_eq, Fl.num_mul, Fl.num_pow, Fl.num_neg,
    Fl.num_sub, Fl.num_add, Fl.num_sqrt h, Fl.num_div _ (two_ne_zero : (2 : ℝ) ≠ 0)]
  rfl

theorem fl_Q1 (ht : 0 < t) (hσ : 0 < σ) (hr : 0 < r) :
    BAWFloat.Q1 (num t) (num r) (num b) (num σ) = num (BAW.Q1 t r b σ) := by
  have hX := baw_X_pos ht hσ hr
  have h : 0 ≤ (BAW.n b σ - 1) ^ 2 + 4 * BAW.X t r σ := by positivity
  simp only [BAWFloat.Q1, fl_n hσ, fl_X ht hσ hr.ne', Fl.two_eq, Fl.one_eq, Fl.four_eq, Fl.num_mul, Fl.num_pow, Fl.num_neg,
    Fl.num_sub, Fl.num_add, Fl.num_sqrt h, Fl.num_div _ (two_ne_zero : (2 : ℝ) ≠ 0)]
  rfl

theorem fl_Q_nan (hX : BAWFloat.X (num t) (num r) (num σ) = .nan) :
    BAWFloat.Q2 (num t) (num r) (num b) (num σ) = .nan ∧ BAWFloat.Q1 (num t) (num r) (num b) (num σ) = .nan := by
  constructor
  · simp only [BAWFloat.Q2, hX, Fl.mul_nan, Fl.add_nan, Fl.sqrt_nan, Fl.nan_div]
  · simp only [BAWFloat.Q1, hX, Fl.mul_nan, Fl.add_nan, Fl.sqrt_nan, Fl.nan_div, Fl.sub_nan]

theorem fl_d1 (hK : 0 < K) (ht : 0 < t) (hσ : 0 < σ) (hs : 0 < s) :
    BAWFloat.d1 (num K) (num t) (num b) (num σ) (num s) = num (BAW.d1 K t b σ s) := by
  have h : σ * √t ≠ 0 := by have := sqrt_pos.2 ht; positivity
  simp only [BAWFloat.d1, Fl.two_eq, Fl.num_div _ hK.ne', Fl.num_log (div_pos hs hK), Fl.num_mul, Fl.num_pow, Fl.num_add,
    Fl.num_sqrt ht.le, Fl.num_div _ (two_ne_zero : (2 : ℝ) ≠ 0), Fl.num_div _ h]
  rfl

theorem fl_gd1 (hK : 0 < K) (ht : 0 < t) (hσ : 0 < σ) (hs : 0 < s) :
    Fl.gbsD1 (num s) (num K) (num t) (num b) (num σ) = num (GBS.d1Expr s K t b σ) := by
  have h : σ * √t ≠ 0 := by have := sqrt_pos.2 ht; positivity
  simp only [Fl.gbsD1, Fl.two_eq, Fl.num_div _ hK.ne', Fl.num_log (div_pos hs hK), Fl.num_mul, Fl.num_add,
    Fl.num_sqrt ht.le, Fl.num_div _ (two_ne_zero : (2 : ℝ) ≠ 0), Fl.num_div _ h]
  rfl

theorem fl_d1_neg (hK : 0 < K) (hs : s < 0) :
    BAWFloat.d1 (num K) (num t) (num b) (num σ) (num s) = .nan ∧ Fl.gbsD1 (num s) (num K) (num t) (num b) (num σ) = .nan := by
  constructor
  · simp only [BAWFloat.d1, Fl.num_div _ hK.ne', Fl.log_neg (div_neg_of_neg_of_pos hs hK), Fl.nan_add, Fl.nan_div]
  · simp only [Fl.gbsD1, Fl.num_div _ hK.ne', Fl.log_neg (div_neg_of_neg_of_pos hs hK), Fl.nan_add, Fl.nan_div]

theorem fl_call (hK : 0 < K) (ht : 0 < t) (hσ : 0 < σ) (hs : 0 < s) :
    Fl.gbsCall (num s) (num K) (num t) (num r) (num b) (num σ) = num (gbsCallNum s K t r b σ) := by
  simp only [Fl.gbsCall, fl_gd1 hK ht hσ hs, Fl.num_mul, Fl.num_sub, Fl.num_neg, Fl.num_exp,
    Fl.num_sqrt ht.le, Fl.CND_num]
  rfl

theorem fl_put (hK : 0 < K) (ht : 0 < t) (hσ : 0 < σ) (hs : 0 < s) :
    Fl.gbsPut (num s) (num K) (num t) (num r) (num b) (num σ) = num (gbsPutNum s K t r b σ) := by
  simp only [Fl.gbsPut, fl_gd1 hK ht hσ hs, Fl.num_mul, Fl.num_sub, Fl.num_neg, Fl.num_exp,
    Fl.num_sqrt ht.le, Fl.CND_num]
  rfl

theorem fl_rhsCall (hK : 0 < K) (ht : 0 < t) (hσ : 0 < σ) (hr : 0 < r) (hs : 0 < s) :
    BAWFloat.rhsCall (num K) (num t) (num r) (num b) (num σ) (num s) = num (BAW.rhsCall K t r b σ s) := by
  have hQ := (baw_roots (b := b) ht hσ hr).2.1
  simp only [BAWFloat.rhsCall, fl_call hK ht hσ hs, fl_d1 hK ht hσ hs, fl_Q2 ht hσ hr, Fl.one_eq, Fl.num_mul, Fl.num_add,
    Fl.num_sub, Fl.num_exp, Fl.CND_num, Fl.num_div _ hQ.ne']
  rfl

theorem fl_biCall (hK : 0 < K) (ht : 0 < t) (hσ : 0 < σ) (hr : 0 < r) (hs : 0 < s) :
    BAWFloat.biCall (num K) (num t) (num r) (num b) (num σ) (num s) = num (BAW.biCall K t r b σ s) := by
  have hQ := (baw_roots (b := b) ht hσ hr).2.1
  have h : σ * √t ≠ 0 := by have := sqrt_pos.2 ht; positivity
  simp only [BAWFloat.biCall, fl_d1 hK ht hσ hs, fl_Q2 ht hσ hr, Fl.one_eq, Fl.num_mul, Fl.num_add,
    Fl.num_sub, Fl.num_exp, Fl.CND_num, Fl.num_sqrt ht.le, Fl.num_div _ h, Fl.num_div _ hQ.ne']
  rfl

theorem fl_rhsPut (hK : 0 < K) (ht : 0 < t) (hσ : 0 < σ) (hr : 0 < r) (hs : 0 < s) :
    BAWFloat.rhsPut (num K) (num t) (num r) (num b) (num σ) (num s) = num (BAW.rhsPut K t r b σ s) := by
  have hQ := (baw_roots (b := b) ht hσ hr).1
  simp only [BAWFloat.rhsPut, fl_put hK ht hσ hs, fl_d1 hK ht hσ hs, fl_Q1 ht hσ hr, Fl.one_eq, Fl.num_mul,
    Fl.num_sub, Fl.num_exp, Fl.num_neg, Fl.CND_num, Fl.num_div _ hQ.ne]
  rfl

theorem fl_biPut (hK : 0 < K) (ht : 0 < t) (hσ : 0 < σ) (hr : 0 < r) (hs : 0 < s) :
    BAWFloat.biPut (num K) (num t) (num r) (num b) (num σ) (num s) = num (BAW.biPut K t r b σ s) := by
  have hQ := (baw_roots (b := b) ht hσ hr).1
  have h : σ * √t ≠ 0 := by have := sqrt_pos.2 ht; positivity
  simp only [BAWFloat.biPut, fl_d1 hK ht hσ hs, fl_Q1 ht hσ hr, Fl.one_eq, Fl.num_mul, Fl.num_add, Fl.num_neg,
    Fl.num_sub, Fl.num_exp, Fl.CND_num, Fl.num_sqrt ht.le, Fl.num_div _ h, Fl.num_div _ hQ.ne]
  rfl

end pieces

/-! ### The iterates stay positive -/

theorem baw_stepCall_pos {K t r b σ s : ℝ} (hK : 0 < K) (ht : 0 < t) (hσ : 0 < σ) (hr : 0 < r) (hb : b ≤ r) (hs : 0 < s) :
    0 < (K + BAW.rhsCall K t r b σ s - BAW.biCall K t r b σ s * s) / (1 - BAW.biCall K t r b σ s) := by
  have hbi := baw_biCall_lt (K := K) ht hσ hr hb s
  have hQ := (baw_roots (b := b) ht hσ hr).2.1
  have hst := sqrt_pos.2 ht
  have e : K + BAW.rhsCall K t r b σ s - BAW.biCall K t r b σ s * s
      = K * (1 - exp (-r * t) * CND (GBS.d2Expr (GBS.d1Expr s K t b σ) σ t))
        + exp ((b - r) * t) * CND (BAW.d1 K t b σ s) * s / (σ * √t * BAW.Q2 t r b σ) := by
    unfold BAW.rhsCall BAW.biCall gbsCallNum
    rw [show GBS.d1Expr s K t b σ = BAW.d1 K t b σ s by rw [baw_d1, D1]]
    field_simp
    ring
  rw [e]
  have h1 := CNDError.CND_mem (GBS.d2Expr (GBS.d1Expr s K t b σ) σ t)
  have h2 := CNDError.CND_mem (BAW.d1 K t b σ s)
  have h3 : exp (-r * t) < 1 := exp_lt_one_iff.2 (by nlinarith)
  have h4 := exp_pos (-r * t)
  have h5 : 0 < 1 - exp (-r * t) * CND (GBS.d2Expr (GBS.d1Expr s K t b σ) σ t) := by nlinarith
  have h6 := h2.1
  exact div_pos (by positivity) (by linarith)

theorem baw_stepPut_pos {K t r b σ s : ℝ} (hK : 0 < K) (ht : 0 < t) (hσ : 0 < σ) (hr : 0 < r) (hb : b ≤ r) (hs : 0 < s) :
    0 < (K - BAW.rhsPut K t r b σ s + BAW.biPut K t r b σ s * s) / (1 + BAW.biPut K t r b σ s) := by
  have hbi := baw_biPut_gt (K := K) ht hσ hr hb s
  have hQ := (baw_roots (b := b) ht hσ hr).1
  have hst := sqrt_pos.2 ht
  have e : K - BAW.rhsPut K t r b σ s + BAW.biPut K t r b σ s * s
      = K * (1 - exp (-r * t) * CND (-(GBS.d2Expr (GBS.d1Expr s K t b σ) σ t)))
        + exp ((b - r) * t) * CND (-(BAW.d1 K t b σ s)) * s / (σ * √t * -BAW.Q1 t r b σ) := by
    unfold BAW.rhsPut BAW.biPut gbsPutNum
    rw [show GBS.d1Expr s K t b σ = BAW.d1 K t b σ s by rw [baw_d1, D1]]
    have := hQ.ne
    field_simp
    ring
  rw [e]
  have h1 := CNDError.CND_mem (-(GBS.d2Expr (GBS.d1Expr s K t b σ) σ t))
  have h2 := CNDError.CND_mem (-(BAW.d1 K t b σ s))
  have h3 : exp (-r * t) < 1 := exp_lt_one_iff.2 (by nlinarith)
  have h4 := exp_pos (-r * t)
  have h5 : 0 < 1 - exp (-r * t) * CND (-(GBS.d2Expr (GBS.d1Expr s K t b σ) σ t)) := by nlinarith
  have h6 := h2.1
  have h7 : 0 < -BAW.Q1 t r b σ := by linarith
  exact div_pos (by positivity) (by linarith)

/-! ### Seed values -/

/-- The exponent used for the call's seed. -/
noncomputable def q2u (r b σ : ℝ) : ℝ := (-(BAW.n b σ - 1) + √((BAW.n b σ - 1) ^ 2 + 4 * BAW.m r σ)) / 2

theorem q2u_gt {r b σ : ℝ} (hσ : 0 < σ) (hr : 0 ≤ r) (hb : b < r) : 1 < q2u r b σ := by
  have hnm : BAW.n b σ < BAW.m r σ := by
    unfold BAW.n BAW.m
    exact div_lt_div_of_pos_right (by linarith) (by positivity)
  have hm : 0 ≤ BAW.m r σ := by unfold BAW.m; positivity
  have h : BAW.n b σ + 1 < √((BAW.n b σ - 1) ^ 2 + 4 * BAW.m r σ) := by
    rcases lt_or_ge (BAW.n b σ + 1) 0 with h | h
    · exact h.trans_le (sqrt_nonneg _)
    · rw [lt_sqrt h]; nlinarith
  unfold q2u
  linarith

theorem seedCall_eq {K t r b σ : ℝ} (hK : 0 < K) (hσ : 0 < σ) (hr : 0 ≤ r) (hb : b < r) :
    BAW.seedCall K t r b σ
      = K * (q2u r b σ - exp (-(b * t + 2 * σ * √t) * (q2u r b σ - 1))) / (q2u r b σ - 1) := by
  have hq := q2u_gt hσ hr hb
  have e : BAW.seedCall K t r b σ = K + (K / (1 - 1 / q2u r b σ) - K) *
        (1 - exp (-(b * t + 2 * σ * √t) * K / (K / (1 - 1 / q2u r b σ) - K))) := rfl
  have h1 : q2u r b σ - 1 ≠ 0 := by linarith
  have h2 : q2u r b σ ≠ 0 := by linarith
  have hD : K / (1 - 1 / q2u r b σ) - K = K / (q2u r b σ - 1) := by
    have h3 : 1 - 1 / q2u r b σ = (q2u r b σ - 1) / q2u r b σ := by field_simp
    rw [h3]
    field_simp
    ring
  rw [e, hD, show -(b * t + 2 * σ * √t) * K / (K / (q2u r b σ - 1)) = -(b * t + 2 * σ * √t) * (q2u r b σ - 1) by
    field_simp]
  field_simp
  ring

theorem fl_seedCall {K t r b σ : ℝ} (hK : 0 < K) (ht : 0 < t) (hσ : 0 < σ) (hr : 0 ≤ r) (hb : b < r) :
    BAWFloat.seedCall (num K) (num t) (num r) (num b) (num σ) = num (BAW.seedCall K t r b σ) := by
  have hq := q2u_gt hσ hr hb
  have hm : 0 ≤ BAW.m r σ := by unfold BAW.m; positivity
  have h : 0 ≤ (BAW.n b σ - 1) ^ 2 + 4 * BAW.m r σ := by positivity
  have hq0 : (-(BAW.n b σ - 1) + √((BAW.n b σ - 1) ^ 2 + 4 * BAW.m r σ)) / 2 ≠ 0 := by
    have : (0 : ℝ) < q2u r b σ := by linarith
    exact this.ne'
  have hi : 0 < 1 - 1 / ((-(BAW.n b σ - 1) + √((BAW.n b σ - 1) ^ 2 + 4 * BAW.m r σ)) / 2) := by
    have : 1 / q2u r b σ < 1 := by rw [div_lt_one (by linarith)]; exact hq
    exact sub_pos.2 this
  have hD : K / (1 - 1 / ((-(BAW.n b σ - 1) + √((BAW.n b σ - 1) ^ 2 + 4 * BAW.m r σ)) / 2)) - K ≠ 0 := by
    have : 1 - 1 / q2u r b σ < 1 := by
      have : 0 < 1 / q2u r b σ := by have : (0 : ℝ) < q2u r b σ := by linarith
                                     positivity
      linarith
    have hi' : 0 < 1 - 1 / q2u r b σ := hi
    have h2 : K < K / (1 - 1 / q2u r b σ) := by
      rw [lt_div_iff₀ hi']; nlinarith
    exact (sub_pos.2 h2).ne'
  simp only [BAWFloat.seedCall, fl_n hσ, fl_m hσ, Fl.two_eq, Fl.one_eq, Fl.four_eq, Fl.num_mul, Fl.num_pow, Fl.num_neg,
    Fl.num_sub, Fl.num_add, Fl.num_sqrt h, Fl.num_sqrt ht.le, Fl.num_div _ (two_ne_zero : (2 : ℝ) ≠ 0), Fl.num_div _ hq0,
    Fl.num_div _ hi.ne', Fl.num_div _ hD, Fl.num_exp]
  rfl

/-- The exponent used for the put's seed. -/
noncomputable def q1u (r b σ : ℝ) : ℝ := (-(BAW.n b σ - 1) - √((BAW.n b σ - 1) ^ 2 + 4 * BAW.m r σ)) / 2

theorem seedPut_of_root {K t r b σ : ℝ} (hK : 0 < K) (ht : 0 < t) (hσ : 0 < σ) (hr : 0 ≤ r) (hq : q1u r b σ < 0) :
    0 < BAW.seedPut K t r b σ ∧ BAWFloat.seedPut (num K) (num t) (num r) (num b) (num σ) = num (BAW.seedPut K t r b σ) := by
  have hm : 0 ≤ BAW.m r σ := by unfold BAW.m; positivity
  have h : 0 ≤ (BAW.n b σ - 1) ^ 2 + 4 * BAW.m r σ := by positivity
  have e : BAW.seedPut K t r b σ = K / (1 - 1 / q1u r b σ) + (K - K / (1 - 1 / q1u r b σ)) *
        exp ((b * t - 2 * σ * √t) * K / (K - K / (1 - 1 / q1u r b σ))) := rfl
  have hi : 1 / q1u r b σ < 0 := one_div_neg.2 hq
  have h1 : 0 < 1 - 1 / q1u r b σ := by linarith
  have hD : 0 < K - K / (1 - 1 / q1u r b σ) := by
    rw [sub_pos, div_lt_iff₀ h1]; nlinarith
  refine ⟨?_, ?_⟩
  · rw [e]
    have := exp_pos ((b * t - 2 * σ * √t) * K / (K - K / (1 - 1 / q1u r b σ)))
    positivity
  · have hq0 : (-(BAW.n b σ - 1) - √((BAW.n b σ - 1) ^ 2 + 4 * BAW.m r σ)) / 2 ≠ 0 := hq.ne
    have h1' : 1 - 1 / ((-(BAW.n b σ - 1) - √((BAW.n b σ - 1) ^ 2 + 4 * BAW.m r σ)) / 2) ≠ 0 := h1.ne'
    have hD' : K - K / (1 - 1 / ((-(BAW.n b σ - 1) - √((BAW.n b σ - 1) ^ 2 + 4 * BAW.m r σ)) / 2)) ≠ 0 := hD.ne'
    simp only [BAWFloat.seedPut, fl_n hσ, fl_m hσ, Fl.two_eq, Fl.one_eq, Fl.four_eq, Fl.num_mul, Fl.num_pow, Fl.num_neg,
      Fl.num_sub, Fl.num_add, Fl.num_sqrt h, Fl.num_sqrt ht.le, Fl.num_div _ (two_ne_zero : (2 : ℝ) ≠ 0), Fl.num_div _ hq0,
      Fl.num_div _ h1', Fl.num_div _ hD', Fl.num_exp]
    rfl

/-! ### Runs of the search -/

/-- From a positive seed the search of the call runs through positive numbers. -/
theorem newtonCall_num {K t r b σ s₀ : ℝ} {Sk : Fl} (hK : 0 < K) (ht : 0 < t) (hσ : 0 < σ) (hr : 0 < r) (hb : b ≤ r)
    (hs : 0 < s₀) (h : BAWFloat.NewtonCall (num K) (num t) (num r) (num b) (num σ) (num s₀) Sk) :
    ∃ s, Sk = num s ∧ 0 < s ∧ |s - K - BAW.rhsCall K t r b σ s| ≤ 1e-6 * K := by
  have hinv : ∃ s, Sk = num s ∧ 0 < s := by
    refine h.inv (P := fun x => ∃ s, x = num s ∧ 0 < s) ?_ ⟨s₀, rfl, hs⟩
    rintro _ ⟨s, rfl, hs⟩ -
    refine ⟨_, ?_, baw_stepCall_pos hK ht hσ hr hb hs⟩
    have hbi := baw_biCall_lt (K := K) ht hσ hr hb s
    simp only [fl_rhsCall hK ht hσ hr hs, fl_biCall hK ht hσ hr hs, Fl.one_eq, Fl.num_add, Fl.num_sub, Fl.num_mul]
    rw [Fl.num_div _ (by linarith)]
  obtain ⟨s, rfl, hs⟩ := hinv
  refine ⟨s, rfl, hs, ?_⟩
  have hx := h.exit
  simp only [fl_rhsCall hK ht hσ hr hs, Fl.num_sub, Fl.num_abs, Fl.num_div _ hK.ne', Fl.lt_num] at hx
  rw [not_lt, div_le_iff₀ hK] at hx
  norm_num at hx ⊢
  exact hx

theorem newtonPut_num {K t r b σ s₀ : ℝ} {Sk : Fl} (hK : 0 < K) (ht : 0 < t) (hσ : 0 < σ) (hr : 0 < r) (hb : b ≤ r)
    (hs : 0 < s₀) (h : BAWFloat.NewtonPut (num K) (num t) (num r) (num b) (num σ) (num s₀) Sk) :
    ∃ s, Sk = num s ∧ 0 < s ∧ |K - s - BAW.rhsPut K t r b σ s| ≤ 1e-6 * K := by
  have hinv : ∃ s, Sk = num s ∧ 0 < s := by
    refine h.inv (P := fun x => ∃ s, x = num s ∧ 0 < s) ?_ ⟨s₀, rfl, hs⟩
    rintro _ ⟨s, rfl, hs⟩ -
    refine ⟨_, ?_, baw_stepPut_pos hK ht hσ hr hb hs⟩
    have hbi := baw_biPut_gt (K := K) ht hσ hr hb s
    simp only [fl_rhsPut hK ht hσ hr hs, fl_biPut hK ht hσ hr hs, Fl.one_eq, Fl.num_add, Fl.num_sub, Fl.num_mul]
    rw [Fl.num_div _ (by linarith)]
  obtain ⟨s, rfl, hs⟩ := hinv
  refine ⟨s, rfl, hs, ?_⟩
  have hx := h.exit
  simp only [fl_rhsPut hK ht hσ hr hs, Fl.num_sub, Fl.num_abs, Fl.num_div _ hK.ne', Fl.lt_num] at hx
  rw [not_lt, div_le_iff₀ hK] at hx
  norm_num at hx ⊢
  exact hx

/-- Every run over the reals from a positive seed is a run with `nan`s in the number system. -/
theorem newtonCall_lift {K t r b σ s₀ s : ℝ} (hK : 0 < K) (ht : 0 < t) (hσ : 0 < σ) (hr : 0 < r) (hb : b ≤ r)
    (hs : 0 < s₀) (h : BAW.NewtonCall K t r b σ s₀ s) :
    BAWFloat.NewtonCall (num K) (num t) (num r) (num b) (num σ) (num s₀) (num s) := by
  have hc : ∀ s, 0 < s → (Fl.lt (num 0.000001) (Fl.abs (num s - num K
      - BAWFloat.rhsCall (num K) (num t) (num r) (num b) (num σ) (num s)) / num K)
      ↔ |s - K - BAW.rhsCall K t r b σ s| / K > 0.000001) := by
    intro s hs
    simp only [fl_rhsCall hK ht hσ hr hs, Fl.num_sub, Fl.num_abs, Fl.num_div _ hK.ne', Fl.lt_num]
  unfold BAW.NewtonCall at h
  induction h with
  | stop h => exact .stop (fun h' => h ((hc _ hs).1 h'))
  | @step s s' h _ ih =>
    refine .step ((hc _ hs).2 h) ?_
    have hbi := baw_biCall_lt (K := K) ht hσ hr hb s
    have e : (num K + BAWFloat.rhsCall (num K) (num t) (num r) (num b) (num σ) (num s)
        - BAWFloat.biCall (num K) (num t) (num r) (num b) (num σ) (num s) * num s)
        / (1 - BAWFloat.biCall (num K) (num t) (num r) (num b) (num σ) (num s))
        = num ((K + BAW.rhsCall K t r b σ s - BAW.biCall K t r b σ s * s) / (1 - BAW.biCall K t r b σ s)) := by
      simp only [fl_rhsCall hK ht hσ hr hs, fl_biCall hK ht hσ hr hs, Fl.one_eq, Fl.num_add, Fl.num_sub, Fl.num_mul]
      rw [Fl.num_div _ (by linarith)]
    have := ih (baw_stepCall_pos hK ht hσ hr hb hs)
    rw [← e] at this
    exact this

/-- A search whose right-hand side is `nan` stops at once. -/
theorem newtonCall_nan {K t r b σ : Fl} {s Sk : Fl} (h : BAWFloat.rhsCall K t r b σ s = .nan) :
    BAWFloat.NewtonCall K t r b σ s Sk ↔ Sk = s := by
  have hstop : ¬ Fl.lt (num 0.000001) (Fl.abs (s - K - BAWFloat.rhsCall K t r b σ s) / K) := by
    rw [h, Fl.sub_nan, Fl.abs_nan, Fl.nan_div]; exact Fl.not_lt_nan _
  constructor
  · intro hN
    cases hN with
    | stop _ => rfl
    | step hc _ => exact absurd hc hstop
  · rintro rfl
    exact .stop hstop

theorem newtonPut_nan {K t r b σ : Fl} {s Sk : Fl} (h : BAWFloat.rhsPut K t r b σ s = .nan) :
    BAWFloat.NewtonPut K t r b σ s Sk ↔ Sk = s := by
  have hstop : ¬ Fl.lt (num 0.000001) (Fl.abs (K - s - BAWFloat.rhsPut K t r b σ s) / K) := by
    rw [h, Fl.sub_nan, Fl.abs_nan, Fl.nan_div]; exact Fl.not_lt_nan _
  constructor
  · intro hN
    cases hN with
    | stop _ => rfl
    | step hc _ => exact absurd hc hstop
  · rintro rfl
    exact .stop hstop

/-- At a seed of zero the search of the call goes on at a positive price. -/
theorem newtonCall_zero {K t r b σ : ℝ} {Sk : Fl} (hK : 0 < K) (ht : 0 < t) (hσ : 0 < σ) (hr : 0 < r) (hb : b ≤ r)
    (h : BAWFloat.NewtonCall (num K) (num t) (num r) (num b) (num σ) (num 0) Sk) :
    ∃ s₀, 0 < s₀ ∧ BAWFloat.NewtonCall (num K) (num t) (num r) (num b) (num σ) (num s₀) Sk := by
  have hQ := (baw_roots (b := b) ht hσ hr).2.1
  have h3 := (baw_roots (b := b) ht hσ hr).2.2
  have hq1 := baw_exponent_gt ht hσ hr hb true (h3 _ (.inr rfl)) (by simpa [cpSign] using hQ)
  have hst : 0 < σ * √t := by have := sqrt_pos.2 ht; positivity
  have e1 : ∀ c : ℝ, (Fl.ninf + num c) / num (σ * √t) = .ninf := by
    intro c
    show Fl.mul .ninf (Fl.inv (num (σ * √t))) = _
    rw [Fl.inv, if_neg hst.ne', Fl.mul, Fl.signed, if_neg, if_pos]
    · exact neg_lt_zero.2 (inv_pos.2 hst)
    · exact not_lt.2 (neg_nonpos.2 (inv_pos.2 hst).le)
  have d1 : BAWFloat.d1 (num K) (num t) (num b) (num σ) (num 0) = .ninf := by
    simp only [BAWFloat.d1, Fl.num_div _ hK.ne', zero_div, Fl.log_zero, Fl.two_eq, Fl.num_pow, Fl.num_mul, Fl.num_add,
      Fl.num_div _ (two_ne_zero : (2 : ℝ) ≠ 0), Fl.num_sqrt ht.le, e1]
  have d1' : Fl.gbsD1 (num 0) (num K) (num t) (num b) (num σ) = .ninf := by
    simp only [Fl.gbsD1, Fl.num_div _ hK.ne', zero_div, Fl.log_zero, Fl.two_eq, Fl.num_mul, Fl.num_add,
      Fl.num_div _ (two_ne_zero : (2 : ℝ) ≠ 0), Fl.num_sqrt ht.le, e1]
  have e2 : ∀ x : ℝ, Fl.ninf - num x = .ninf := fun x => rfl
  have hrhs : BAWFloat.rhsCall (num K) (num t) (num r) (num b) (num σ) (num 0) = num 0 := by
    simp only [BAWFloat.rhsCall, Fl.gbsCall, d1, d1', Fl.num_sqrt ht.le, Fl.num_mul, e2, Fl.CND_ninf, Fl.num_sub, Fl.num_exp,
      Fl.num_neg, Fl.one_eq, fl_Q2 ht hσ hr, Fl.num_div _ hQ.ne', Fl.num_add, mul_zero, sub_zero, zero_div, add_zero, zero_mul]
  have hbi : BAWFloat.biCall (num K) (num t) (num r) (num b) (num σ) (num 0) = num (1 / BAW.Q2 t r b σ) := by
    simp only [BAWFloat.biCall, d1, Fl.CND_ninf, Fl.num_sub, Fl.num_mul, Fl.num_exp, Fl.num_sqrt ht.le, Fl.num_div _ hst.ne',
      Fl.one_eq, fl_Q2 ht hσ hr, Fl.num_div _ hQ.ne', Fl.num_add, mul_zero, sub_zero, zero_div, zero_add, zero_mul]
  cases h with
  | stop hc =>
    exfalso
    apply hc
    simp only [hrhs, Fl.num_sub, Fl.num_abs, Fl.num_div _ hK.ne', Fl.lt_num, zero_sub, sub_zero, abs_neg, abs_of_pos hK,
      div_self hK.ne']
    norm_num
  | step hc hrest =>
    refine ⟨K / (1 - 1 / BAW.Q2 t r b σ), div_pos hK (by linarith), ?_⟩
    have hstep : (num K + BAWFloat.rhsCall (num K) (num t) (num r) (num b) (num σ) (num 0)
        - BAWFloat.biCall (num K) (num t) (num r) (num b) (num σ) (num 0) * num 0)
        / (1 - BAWFloat.biCall (num K) (num t) (num r) (num b) (num σ) (num 0)) = num (K / (1 - 1 / BAW.Q2 t r b σ)) := by
      simp only [hrhs, hbi, Fl.num_add, Fl.num_mul, Fl.num_sub, Fl.one_eq, mul_zero, add_zero, sub_zero]
      rw [Fl.num_div _ (by linarith)]
    rw [← hstep]
    exact hrest

/-! ### The theorems -/

theorem q2u_root {r b σ q : ℝ} (hσ : 0 < σ) (hr : 0 < r) (hb : b < r) (hq1 : 1 < q)
    (hq : 1 / 2 * σ ^ 2 * q * (q - 1) + b * q = r) : q = q2u r b σ := by
  have h1 := q2u_gt hσ hr.le hb
  have h2 := perpetual_root (b := b) hσ hr (.inl (rfl : q2u r b σ = _))
  have h3 : (q - q2u r b σ) * (1 / 2 * σ ^ 2 * (q + q2u r b σ - 1) + b) = 0 := by linear_combination hq - h2
  rcases mul_eq_zero.1 h3 with h | h
  · linarith
  · exfalso
    have e : 1 / 2 * σ ^ 2 * q * (q2u r b σ) = -r := by linear_combination q * h - hq
    have : 0 < 1 / 2 * σ ^ 2 * q * (q2u r b σ) := by
      have : 0 < q := by linarith
      have : 0 < q2u r b σ := by linarith
      positivity
    linarith

/-- The number returned by the call once the search has stopped at a positive price. -/
theorem fl_call_value {S K t r b σ s : ℝ} {x : Fl} (hS : 0 < S) (hK : 0 < K) (ht : 0 < t) (hσ : 0 < σ) (hr : 0 < r)
    (hs : 0 < s)
    (h : (Fl.lt (num S) (num s) ∧ x = Fl.gbsCall (num S) (num K) (num t) (num r) (num b) (num σ)
        + num s / BAWFloat.Q2 (num t) (num r) (num b) (num σ)
          * (1 - Fl.exp ((num b - num r) * num t) * Fl.CND (BAWFloat.d1 (num K) (num t) (num b) (num σ) (num s)))
        * Fl.rpow (num S / num s) (BAWFloat.Q2 (num t) (num r) (num b) (num σ)))
      ∨ (¬ Fl.lt (num S) (num s) ∧ x = num S - num K)) :
    x = num (if S < s then gbsCallNum S K t r b σ
        + s / BAW.Q2 t r b σ * (1 - exp ((b - r) * t) * CND (BAW.d1 K t b σ s)) * (S / s) ^ BAW.Q2 t r b σ else S - K) := by
  have hQ := (baw_roots (b := b) ht hσ hr).2.1
  rcases h with ⟨hlt, h⟩ | ⟨hlt, h⟩
  · rw [if_pos (Fl.lt_num.1 hlt), h]
    simp only [fl_call hK ht hσ hS, fl_d1 hK ht hσ hs, fl_Q2 ht hσ hr, Fl.num_div _ hQ.ne', Fl.num_div _ hs.ne', Fl.num_sub,
      Fl.one_eq, Fl.num_mul, Fl.num_exp, Fl.CND_num, Fl.num_rpow (div_pos hS hs), Fl.num_add]
  · rw [if_neg (fun h => hlt (Fl.lt_num.2 h)), h, Fl.num_sub]

/-- **C91, call.** Let `q > 1` be the exponent of the perpetual call, `σ²/2·q(q-1) + bq = r`. If
`exp(-(b t + 2σ√t)(q-1)) ≤ q` then `call()`, whenever it returns, returns a number, and that number is near the exact
value of the quadratic approximation. -/
theorem C91_call_partial {S K t r b σ q : ℝ} (hS : 0 < S) (hK : 0 < K) (ht : 0 < t) (hσ : 0 < σ) (hr : 0 < r) (hb : b < r)
    (hq1 : 1 < q) (hq : 1 / 2 * σ ^ 2 * q * (q - 1) + b * q = r)
    (hseed : exp (-(b * t + 2 * σ * √t) * (q - 1)) ≤ q) {x : Fl} (h : BAWFloat.Call S K t r b σ x)
    {Q A Sx : ℝ} (hx : IsQuadApprox true K t r b σ Q A Sx) :
    ∃ p Sk, x = num p ∧ 0 < Sk ∧ |Sk - Sx| ≤ searchErr K t r b Q Sk / ((1 - exp ((b - r) * t)) * (1 - 1 / Q)) ∧
      |p - quadValue true K t r b σ Q A Sx S|
        ≤ (1 + lip t r b σ Q) * |Sk - Sx| + searchErr K t r b Q Sk + eurErr K t r b S + premErr t r b Q Sk := by
  rw [BAWFloat.Call, if_neg (not_le.2 hb), fl_seedCall hK ht hσ hr.le hb] at h
  obtain ⟨Sk, hN, hval⟩ := h
  have hqe := q2u_root hσ hr hb hq1 hq
  have hs0 : 0 ≤ BAW.seedCall K t r b σ := by
    rw [seedCall_eq hK hσ hr.le hb, ← hqe]
    exact div_nonneg (mul_nonneg hK.le (by linarith)) (by linarith)
  obtain ⟨s, rfl, hs, hexit⟩ : ∃ s, Sk = num s ∧ 0 < s ∧ |s - K - BAW.rhsCall K t r b σ s| ≤ 1e-6 * K := by
    rcases hs0.eq_or_lt with h0 | h0
    · rw [← h0] at hN
      obtain ⟨s₀, h1, h2⟩ := newtonCall_zero hK ht hσ hr hb.le hN
      exact newtonCall_num hK ht hσ hr hb.le h1 h2
    · exact newtonCall_num hK ht hσ hr hb.le h0 hN
  have hv := fl_call_value hS hK ht hσ hr hs hval
  have key := baw_call_accuracy hS hK ht hσ hr hb hs hexit rfl hx
  exact ⟨_, s, hv, hs, key.1, key.2⟩

/-- **C91, refuted for the other calls.** If `exp(-(b t + 2σ√t)(q-1)) > q` the search starts at a negative price, every
comparison with `nan` is false, and `call()` returns `S - K` for every spot. -/
theorem C91_call_fails {S K t r b σ q : ℝ} (hK : 0 < K) (ht : 0 < t) (hσ : 0 < σ) (hr : 0 < r) (hb : b < r) (hS : 0 < S)
    (hq1 : 1 < q) (hq : 1 / 2 * σ ^ 2 * q * (q - 1) + b * q = r)
    (hseed : q < exp (-(b * t + 2 * σ * √t) * (q - 1))) (x : Fl) :
    BAWFloat.Call S K t r b σ x ↔ x = num (S - K) := by
  have hqe := q2u_root hσ hr hb hq1 hq
  have hs0 : BAW.seedCall K t r b σ < 0 := by
    rw [seedCall_eq hK hσ hr.le hb, ← hqe]
    exact div_neg_of_neg_of_pos (mul_neg_of_pos_of_neg hK (by linarith)) (by linarith)
  rw [BAWFloat.Call, if_neg (not_le.2 hb), fl_seedCall hK ht hσ hr.le hb]
  have hrhs : BAWFloat.rhsCall (num K) (num t) (num r) (num b) (num σ) (num (BAW.seedCall K t r b σ)) = .nan := by
    simp only [BAWFloat.rhsCall, (fl_d1_neg hK hs0).1, Fl.CND_nan, Fl.mul_nan, Fl.sub_nan, Fl.nan_mul, Fl.nan_div, Fl.add_nan]
  simp only [newtonCall_nan hrhs]
  have hn : ¬ Fl.lt (num S) (num (BAW.seedCall K t r b σ)) := fun h => by
    have := Fl.lt_num.1 h
    linarith
  rw [← Fl.num_sub]
  constructor
  · rintro ⟨_, rfl, h⟩
    rcases h with ⟨h, -⟩ | ⟨-, h⟩
    · exact absurd h hn
    · exact h
  · intro h
    exact ⟨_, rfl, .inr ⟨hn, h⟩⟩

/-- **C91.** In particular `call()` returns `S - K` whenever `b t + 2σ√t ≤ -1`. -/
theorem C91_call_fails_carry {S K t r b σ : ℝ} (hS : 0 < S) (hK : 0 < K) (ht : 0 < t) (hσ : 0 < σ) (hr : 0 < r)
    (hbt : b * t + 2 * σ * √t ≤ -1) (x : Fl) : BAWFloat.Call S K t r b σ x ↔ x = num (S - K) := by
  have hst := sqrt_pos.2 ht
  have hb : b < r := by
    have : b * t < 0 := by nlinarith [mul_pos hσ hst]
    have : b < 0 := by
      by_contra h
      rw [not_lt] at h
      nlinarith
    linarith
  have hq1 := q2u_gt hσ hr.le hb
  refine C91_call_fails hK ht hσ hr hb hS hq1 (perpetual_root hσ hr (.inl rfl)) ?_ x
  have h1 : q2u r b σ - 1 ≤ -(b * t + 2 * σ * √t) * (q2u r b σ - 1) := le_mul_of_one_le_left (by linarith) (by linarith)
  calc q2u r b σ = q2u r b σ - 1 + 1 := by ring
    _ < exp (q2u r b σ - 1) := add_one_lt_exp (by linarith)
    _ ≤ _ := exp_le_exp.2 h1

theorem q1u_neg {r b σ : ℝ} (hσ : 0 < σ) (hr : 0 < r) : q1u r b σ < 0 := by
  have hm : 0 < BAW.m r σ := by unfold BAW.m; positivity
  have : |BAW.n b σ - 1| < √((BAW.n b σ - 1) ^ 2 + 4 * BAW.m r σ) := by
    rw [← sqrt_sq_eq_abs]; exact sqrt_lt_sqrt (sq_nonneg _) (by linarith)
  have := (neg_le_abs (BAW.n b σ - 1)).trans_lt this
  unfold q1u
  linarith

/-- **C91, put.** For `0 < r` and `b ≤ r` the search of the put never leaves the positive numbers: `put()`, whenever it
returns, returns a number near the exact value of the quadratic approximation. -/
theorem C91_put_partial {S K t r b σ : ℝ} (hS : 0 < S) (hK : 0 < K) (ht : 0 < t) (hσ : 0 < σ) (hr : 0 < r) (hb : b ≤ r)
    {x : Fl} (h : BAWFloat.Put S K t r b σ x) {Q A Sx : ℝ} (hx : IsQuadApprox false K t r b σ Q A Sx) :
    ∃ p Sk, x = num p ∧ 0 < Sk ∧
      |Sk - Sx| ≤ searchErr K t r b Q Sk / ((1 - exp ((b - r) * t) * Φ (-(BAW.d1 K t b σ (min Sk Sx)))) * (1 - 1 / Q)) ∧
      |p - quadValue false K t r b σ Q A Sx S|
        ≤ (1 + lip t r b σ Q) * |Sk - Sx| + searchErr K t r b Q Sk + eurErr K t r b S + premErr t r b Q Sk := by
  obtain ⟨h1, h2⟩ := seedPut_of_root (K := K) (t := t) hK ht hσ hr.le (q1u_neg (b := b) hσ hr)
  rw [BAWFloat.Put, h2] at h
  obtain ⟨Sk, hN, hval⟩ := h
  obtain ⟨s, rfl, hs, hexit⟩ := newtonPut_num hK ht hσ hr hb h1 hN
  have hQ := (baw_roots (b := b) ht hσ hr).1
  have hv : x = num (if s < S then gbsPutNum S K t r b σ
        + -(s / BAW.Q1 t r b σ) * (1 - exp ((b - r) * t) * CND (-(BAW.d1 K t b σ s))) * (S / s) ^ BAW.Q1 t r b σ
        else K - S) := by
    rcases hval with ⟨hlt, h⟩ | ⟨hlt, h⟩
    · rw [if_pos (Fl.lt_num.1 hlt), h]
      simp only [fl_put hK ht hσ hS, fl_d1 hK ht hσ hs, fl_Q1 ht hσ hr, Fl.num_div _ hQ.ne, Fl.num_div _ hs.ne', Fl.num_sub,
        Fl.one_eq, Fl.num_mul, Fl.num_exp, Fl.num_neg, Fl.CND_num, Fl.num_rpow (div_pos hS hs), Fl.num_add]
    · rw [if_neg (fun h => hlt (Fl.lt_num.2 h)), h, Fl.num_sub]
  have key := baw_put_accuracy hS hK ht hσ hr hb hs hexit rfl hx
  exact ⟨_, s, hv, hs, key.1, key.2⟩

/-! ### Interest rate zero or negative -/

/-- **C91, refuted for `r = 0`, call.** With interest rate zero (and `b < 0`) the call is the exercise value from the
seed on and `nan` below it. -/
theorem C91_call_rate_zero {S K t b σ : ℝ} (hK : 0 < K) (ht : 0 < t) (hσ : 0 < σ) (hb : b < 0) (x : Fl) :
    BAWFloat.Call S K t 0 b σ x ↔ x = if S < BAW.seedCall K t 0 b σ then .nan else num (S - K) := by
  rw [BAWFloat.Call, if_neg (not_le.2 hb), fl_seedCall hK ht hσ le_rfl hb]
  have hQ := (fl_Q_nan (b := b) (fl_X_zero (t := t) (σ := σ))).1
  have hrhs : BAWFloat.rhsCall (num K) (num t) (num 0) (num b) (num σ) (num (BAW.seedCall K t 0 b σ)) = .nan := by
    simp only [BAWFloat.rhsCall, hQ, Fl.div_nan, Fl.add_nan]
  simp only [newtonCall_nan hrhs, exists_eq_left, hQ, Fl.div_nan, Fl.nan_mul, Fl.add_nan, Fl.lt_num, Fl.num_sub]
  split_ifs with h <;> simp [h]

/-- **C91, refuted for `r = 0`, put.** With interest rate zero there is a price `s` such that the put is `nan` for spots
above `s` and the exercise value up to `s`; for `b ≤ σ²/2` it is `K·exp(b t - 2σ√t)`. -/
theorem C91_put_rate_zero {K t b σ : ℝ} (hK : 0 < K) (ht : 0 < t) (hσ : 0 < σ) :
    ∃ s, 0 < s ∧ (b ≤ σ ^ 2 / 2 → s = K * exp (b * t - 2 * σ * √t)) ∧
      ∀ S x, BAWFloat.Put S K t 0 b σ x ↔ x = if s < S then .nan else num (K - S) := by
  have hm : BAW.m 0 σ = 0 := by unfold BAW.m; simp
  have hseed : ∃ s, 0 < s ∧ (b ≤ σ ^ 2 / 2 → s = K * exp (b * t - 2 * σ * √t)) ∧
      BAWFloat.seedPut (num K) (num t) (num 0) (num b) (num σ) = num s := by
    have hn : BAW.n b σ ≤ 1 ↔ b ≤ σ ^ 2 / 2 := by
      unfold BAW.n
      rw [div_le_one (by positivity)]
      constructor <;> intro h <;> linarith
    rcases le_or_gt (BAW.n b σ) 1 with h | h
    · refine ⟨_, by positivity, fun _ => rfl, ?_⟩
      have hsq : √((BAW.n b σ - 1) ^ 2 + 4 * BAW.m 0 σ) = 1 - BAW.n b σ := by
        rw [hm, mul_zero, add_zero, sqrt_sq_eq_abs, abs_of_nonpos (by linarith)]; ring
      have h0 : 0 ≤ (BAW.n b σ - 1) ^ 2 + 4 * BAW.m 0 σ := by rw [hm]; positivity
      have e1 : num 1 / num 0 = Fl.pinf := by
        show Fl.mul (num 1) (Fl.inv (num 0)) = _
        rw [Fl.inv, if_pos rfl, Fl.mul, Fl.signed, if_pos one_pos]
      have e2 : num 1 - Fl.pinf = .ninf := rfl
      have e3 : num K / Fl.ninf = num 0 := by
        show Fl.mul (num K) (num 0) = _
        rw [Fl.mul, mul_zero]
      have hz : (-(BAW.n b σ - 1) - (1 - BAW.n b σ)) / 2 = 0 := by ring
      simp only [BAWFloat.seedPut, fl_n hσ, fl_m hσ, Fl.two_eq, Fl.one_eq, Fl.four_eq, Fl.num_mul, Fl.num_pow, Fl.num_neg,
        Fl.num_sub, Fl.num_add, Fl.num_sqrt h0, hsq, Fl.num_sqrt ht.le, Fl.num_div _ (two_ne_zero : (2 : ℝ) ≠ 0), hz, e1, e2,
        e3, sub_zero, Fl.num_div _ hK.ne', Fl.num_exp, zero_add]
      rw [mul_div_cancel_right₀ _ hK.ne']
    · have hq : q1u 0 b σ < 0 := by
        unfold q1u
        rw [hm, mul_zero, add_zero, sqrt_sq_eq_abs, abs_of_pos (by linarith)]
        linarith
      obtain ⟨h1, h2⟩ := seedPut_of_root (K := K) (t := t) hK ht hσ le_rfl hq
      exact ⟨_, h1, fun hb => absurd (hn.2 hb) (not_le.2 h), h2⟩
  obtain ⟨s, hs, hse, hsd⟩ := hseed
  refine ⟨s, hs, hse, fun S x => ?_⟩
  rw [BAWFloat.Put, hsd]
  have hQ := (fl_Q_nan (b := b) (fl_X_zero (t := t) (σ := σ))).2
  have hrhs : BAWFloat.rhsPut (num K) (num t) (num 0) (num b) (num σ) (num s) = .nan := by
    simp only [BAWFloat.rhsPut, hQ, Fl.div_nan, Fl.sub_nan]
  simp only [newtonPut_nan hrhs, exists_eq_left, hQ, Fl.div_nan, Fl.neg_nan, Fl.nan_mul, Fl.add_nan, Fl.lt_num, Fl.num_sub]
  split_ifs with h <;> simp [h]

/-- **C91, refuted for some negative rates.** If the quadratic of the perpetual put has no real root, the seed is `nan`
and `put()` returns `K - S` for every spot, a negative number for `S > K`. -/
theorem C91_put_rate_negative {S K t r b σ : ℝ} (hσ : 0 < σ) (h : (2 * b / σ ^ 2 - 1) ^ 2 + 8 * r / σ ^ 2 < 0) (x : Fl) :
    BAWFloat.Put S K t r b σ x ↔ x = num (K - S) := by
  have hneg : (BAW.n b σ - 1) ^ 2 + 4 * BAW.m r σ < 0 := by
    unfold BAW.n BAW.m
    calc _ = (2 * b / σ ^ 2 - 1) ^ 2 + 8 * r / σ ^ 2 := by ring
      _ < 0 := h
  have hsd : BAWFloat.seedPut (num K) (num t) (num r) (num b) (num σ) = .nan := by
    simp only [BAWFloat.seedPut, fl_n hσ, fl_m hσ, Fl.one_eq, Fl.four_eq, Fl.num_mul, Fl.num_pow,
      Fl.num_sub, Fl.num_add, Fl.sqrt_neg hneg, Fl.sub_nan, Fl.nan_div, Fl.div_nan, Fl.nan_add]
  have hrhs : BAWFloat.rhsPut (num K) (num t) (num r) (num b) (num σ) .nan = .nan := by
    simp only [BAWFloat.rhsPut, Fl.mul_nan, Fl.nan_div, Fl.sub_nan]
  rw [BAWFloat.Put, hsd]
  simp only [newtonPut_nan hrhs, exists_eq_left, Fl.not_nan_lt, false_and, not_false_eq_true, true_and, false_or, Fl.num_sub]

/-- Realistic contracts in each of the cases: a twenty-year call on an asset with a dividend yield of 19% is priced at
minus 90; a one-year put at the money with interest rate zero is `nan`; the put with `r = -2%` and `b = σ²/2` is minus
100 at `S = 200`. The hypothesis of `C91_call_partial` holds for every carry with `b t + 2σ√t ≥ 0`. -/
theorem C91_example :
    BAWFloat.Call 10 100 20 0.02 (-0.17) 0.2 (num (-90)) ∧
    BAWFloat.Put 100 100 1 0 0 0.2 .nan ∧
    BAWFloat.Put 200 100 1 (-0.02) 0.02 0.2 (num (-100)) ∧
    (∀ t b σ q : ℝ, 0 ≤ b * t + 2 * σ * √t → 1 < q → exp (-(b * t + 2 * σ * √t) * (q - 1)) ≤ q) := by
  refine ⟨?_, ?_, ?_, fun t b σ q h hq => ?_⟩
  · refine (C91_call_fails_carry (by norm_num) (by norm_num) (by norm_num) (by norm_num) (by norm_num) ?_ _).2 (by norm_num)
    have : √(20 : ℝ) ≤ 4.5 := by
      rw [sqrt_le_left (by norm_num)]; norm_num
    linarith
  · obtain ⟨s, -, hs, h⟩ := C91_put_rate_zero (K := 100) (t := 1) (b := 0) (σ := 0.2) (by norm_num) (by norm_num) (by norm_num)
    rw [h, if_pos]
    rw [hs (by norm_num)]
    have : exp (0 * 1 - 2 * 0.2 * √(1 : ℝ)) < 1 := exp_lt_one_iff.2 (by rw [sqrt_one]; norm_num)
    linarith
  · exact (C91_put_rate_negative (by norm_num) (by norm_num) _).2 (by norm_num)
  · refine le_trans (exp_le_one_iff.2 ?_) hq.le
    exact mul_nonpos_of_nonpos_of_nonneg (by linarith) (by linarith)

/-- The run of `C38_call_example` as a run of this model: the hypotheses of `C91_call_partial` hold together. -/
theorem C91_run_example : (∃ x, BAWFloat.Call 1 1 400 1 0 1 x) ∧
    (1 : ℝ) < 2 ∧ 1 / 2 * (1 : ℝ) ^ 2 * 2 * (2 - 1) + 0 * 2 = 1 ∧
    exp (-(0 * 400 + 2 * 1 * √(400 : ℝ)) * (2 - 1)) ≤ 2 ∧ ∃ Q A Sx, IsQuadApprox true 1 400 1 0 1 Q A Sx := by
  refine ⟨?_, by norm_num, by norm_num, ?_, ?_⟩
  · obtain ⟨Sk, x, -, h⟩ := C38_call_example
    rw [BAW.Call, if_neg (by norm_num)] at h
    obtain ⟨hN, -⟩ := h
    have hs : 0 < BAW.seedCall 1 400 1 0 1 := by
      obtain ⟨q, Su, -, -, -, h, -⟩ := C78_seed_call (K := 1) (t := 400) (r := 1) (b := 0) (σ := 1) (by norm_num)
        (by norm_num) (by norm_num) (by norm_num)
      have := (h (by have : (0 : ℝ) < √400 := sqrt_pos.2 (by norm_num)
                     linarith)).1
      linarith
    have := newtonCall_lift (by norm_num) (by norm_num) (by norm_num) (by norm_num) (by norm_num) hs hN
    rw [← fl_seedCall (by norm_num) (by norm_num) (by norm_num) (by norm_num) (by norm_num)] at this
    have hn : ¬ (0 : ℝ) ≥ 1 := by norm_num
    simp only [BAWFloat.Call, if_neg hn]
    by_cases hlt : Fl.lt (num 1) (num Sk)
    · exact ⟨_, _, this, .inl ⟨hlt, rfl⟩⟩
    · exact ⟨_, _, this, .inr ⟨hlt, rfl⟩⟩
  · refine le_trans (exp_le_one_iff.2 ?_) one_le_two
    have : (0 : ℝ) ≤ √400 := sqrt_nonneg _
    linarith
  · obtain ⟨_, _, q, A, Sx, -, -, h⟩ := C77_example
    exact ⟨q, A, Sx, h⟩

end Verif.Props
