import Verif.Lemmas.GBSRounding
import Verif.Props.GBSAccuracy

/-! C100: rounding errors of the prices of `GBSOption`. -/
namespace Verif.Props
open Spec Real

variable {e S K t r b σ : ℝ} {A : ArithT}

/-- C100. In exact arithmetic the functions are those of the real-number model. -/
theorem C100_exact (isCall : Bool) (S K t r b σ : ℝ) :
    (GBS.new S K t r b (some σ)).price isCall = .ok (GBSFl.price ArithT.exact S K t r b σ isCall) := by
  have hcnd : ∀ x, GBSFl.cnd ArithT.exact x = CND x := by
    intro x
    simp only [GBSFl.cnd, GBSFl.ndf, GBSFl.cndPoly, GBSFl.cndK, ArithT.exact, Arith.exact, id, CND, NDF,
      cndPoly, Verif.cndK]
  cases isCall
  · have h : GBSFl.price ArithT.exact S K t r b σ false = GBSFl.put ArithT.exact S K t r b σ := rfl
    rw [h]
    unfold GBSFl.put
    simp only [hcnd]
    rfl
  · have h : GBSFl.price ArithT.exact S K t r b σ true = GBSFl.call ArithT.exact S K t r b σ := rfl
    rw [h]
    unfold GBSFl.call
    simp only [hcnd]
    rfl

/-- C100. The distribution function of the code in rounded arithmetic: approximation error plus rounding
error, uniformly in the argument. -/
theorem C100_cnd (hA : RoundedT e A) (he : 0 ≤ e) (he1 : e < 1) (x : ℝ) :
    |GBSFl.cnd A x - Φ x| ≤ 7.5e-8 + 3.25 * (exp (39 * level e) - 1) := by
  have a := cnd_err hA he he1 x
  have c := CNDError.CND_error x
  calc |GBSFl.cnd A x - Φ x| = |(GBSFl.cnd A x - CND x) + (CND x - Φ x)| := by ring_nf
    _ ≤ _ := abs_add_le _ _
    _ ≤ _ := by unfold level; linarith

/-- C100. Call and put computed in rounded arithmetic differ from the exact values by at most `priceErr`
relative to the discounted legs. -/
theorem C100_price (hA : RoundedT e A) (he : 0 ≤ e) (he1 : e < 1) (h : Valid S K t σ) (r b : ℝ)
    (isCall : Bool) :
    |GBSFl.price A S K t r b σ isCall - bsPrice isCall S K t r b σ|
      ≤ priceErr e S K t r b σ * (S * exp ((b - r) * t) + K * exp (-r * t)) :=
  price_rounding hA he he1 h.S h.K h.t h.σ isCall

private theorem level_le (he : 0 ≤ e) (he2 : e ≤ 1 / 2) : level e ≤ 2 * e := by
  unfold level
  have h1 : (0 : ℝ) < 1 - e := by linarith
  have := one_sub_inv_le_log_of_pos h1
  have h2 : (1 - e)⁻¹ ≤ 1 + 2 * e := by
    rw [inv_le_iff_one_le_mul₀ h1]; nlinarith
  linarith

private theorem exp_sub_one_le {x : ℝ} (h0 : 0 ≤ x) (h1 : x ≤ 1 / 2) : exp x - 1 ≤ 2 * x := by
  have := add_one_le_exp (-x)
  have h2 : exp x * exp (-x) = 1 := by rw [← exp_add]; simp
  have h3 : exp x * (1 - x) ≤ 1 := by rw [← h2]; exact mul_le_mul_of_nonneg_left (by linarith) (exp_pos x).le
  nlinarith [exp_pos x]

/-- C100. In double precision (`e = 2⁻⁵³`) the rounding error is far below the error of the polynomial
approximation, unless the parameters are extreme: `d1` and `d2` up to a condition of `10⁵` and
`(|b| + |r|) t` up to `1000`. -/
theorem C100_double (hA : RoundedT e A) (he : 0 ≤ e) (he1 : e ≤ 2⁻¹ ^ 53) (h : Valid S K t σ)
    (hd : dCond S K t b σ ≤ 10 ^ 5) (hr : (|b| + |r|) * t ≤ 1000) (isCall : Bool) :
    |GBSFl.price A S K t r b σ isCall - bsPrice isCall S K t r b σ|
      ≤ 7.6e-8 * (S * exp ((b - r) * t) + K * exp (-r * t)) := by
  have hS := h.S; have hK := h.K; have ht := h.t
  have he53 : e ≤ 1.2e-16 := he1.trans (by norm_num)
  refine (C100_price hA he (by linarith) h r b isCall).trans ?_
  refine mul_le_mul_of_nonneg_right ?_ (by positivity)
  have hl := level_le he (by linarith)
  have hl0 : 0 ≤ level e := by
    unfold level
    have := log_nonpos (by linarith) (by linarith : 1 - e ≤ 1)
    linarith
  have hL : level e ≤ 2.4e-16 := by linarith
  have h39 := exp_sub_one_le (x := 39 * level e) (by linarith) (by linarith)
  have h2 := exp_sub_one_le (x := 2 * level e) (by linarith) (by linarith)
  have h2n : 0 ≤ exp (2 * level e) - 1 := by linarith [one_le_exp (by linarith : 0 ≤ 2 * level e)]
  have h39n : 0 ≤ exp (39 * level e) - 1 := by linarith [one_le_exp (by linarith : 0 ≤ 39 * level e)]
  have hd0 : 0 ≤ dCond S K t b σ := by
    have := sqrt_nonneg t
    have := h.σ
    unfold dCond; positivity
  have hr0 : 0 ≤ (|b| + |r|) * t := by positivity
  unfold priceErr
  set R := (|b| + |r|) * t
  set X := dCond S K t b σ
  set E2 := exp (2 * level e) - 1
  set E39 := exp (39 * level e) - 1
  have k1 : E2 * R ≤ 1e-12 := by
    have : E2 ≤ 9.6e-16 := by linarith
    nlinarith
  have k1n : 0 ≤ E2 * R := by positivity
  have k2 : E39 * (3.25 + 0.4 * X) ≤ 8e-10 := by
    have : E39 ≤ 1.9e-14 := by linarith
    nlinarith
  have k3 := exp_sub_one_le (x := 4 * level e + E2 * R) (by positivity) (by linarith)
  set Q := exp (4 * level e + E2 * R)
  have k2n : 0 ≤ E39 * (3.25 + 0.4 * X) := by positivity
  have k4 : Q ≤ 1 + 1e-11 := by linarith
  nlinarith

/-- An arithmetic with every result too large by the relative error `e`. -/
noncomputable def biased (e : ℝ) : ArithT where
  add x y := (x + y) * (1 + e)
  sub x y := (x - y) * (1 + e)
  mul x y := (x * y) * (1 + e)
  div x y := (x / y) * (1 + e)
  pow x k := x ^ k * (1 + e)
  sqrt x := √x * (1 + e)
  exp x := exp x * (1 + e)
  log x := log x * (1 + e)
  atan x := arctan x * (1 + e)
  lit x := x * (1 + e)

/-- C100, a case: a biased arithmetic satisfies the assumptions and is not exact, and for the documented
example `GBSOption(10, 8, 1, 0.02, 0.01, 0.1)` the condition is below `15`, so the bounds of
`C100_double` hold. -/
theorem C100_example :
    RoundedT (2⁻¹ ^ 53) (biased (2⁻¹ ^ 53)) ∧ (biased (2⁻¹ ^ 53)).add 1 1 ≠ 2 ∧
    dCond 10 8 1 0.01 0.1 ≤ 15 ∧
    ∀ isCall, |GBSFl.price (biased (2⁻¹ ^ 53)) 10 8 1 0.02 0.01 0.1 isCall
        - bsPrice isCall 10 8 1 0.02 0.01 0.1|
      ≤ 7.6e-8 * (10 * exp ((0.01 - 0.02) * 1) + 8 * exp (-0.02 * 1)) := by
  have key : ∀ x : ℝ, |x * (1 + 2⁻¹ ^ 53) - x| ≤ 2⁻¹ ^ 53 * |x| := fun x => by
    rw [show x * (1 + 2⁻¹ ^ 53) - x = 2⁻¹ ^ 53 * x by ring, abs_mul, abs_of_pos (by positivity)]
  have hA : RoundedT (2⁻¹ ^ 53) (biased (2⁻¹ ^ 53)) :=
    { add := fun x y => key (x + y)
      sub := fun x y => key (x - y)
      mul := fun x y => key (x * y)
      div := fun x y => key (x / y)
      pow := fun x k => key (x ^ k)
      sqrt := fun x => by simpa [biased, abs_of_nonneg (sqrt_nonneg x)] using key (√x)
      exp := fun x => by simpa [biased, abs_of_pos (exp_pos x)] using key (exp x)
      log := fun x => key (log x)
      atan := fun x => key (arctan x)
      lit := fun x => key x }
  have hd : dCond 10 8 1 0.01 0.1 ≤ 15 := by
    have h1 : log (10 / 8 : ℝ) ≤ 0.25 := by
      have := log_le_sub_one_of_pos (by norm_num : (0 : ℝ) < 10 / 8); norm_num at this ⊢; linarith
    have h2 : 0 ≤ log (10 / 8 : ℝ) := log_nonneg (by norm_num)
    unfold dCond
    rw [abs_of_nonneg h2, sqrt_one, abs_of_pos (by norm_num : (0 : ℝ) < 0.01)]
    norm_num at h1 ⊢
    linarith
  refine ⟨hA, ?_, hd, fun isCall => ?_⟩
  · simp only [biased]; norm_num
  · exact C100_double hA (by positivity) le_rfl ⟨by norm_num, by norm_num, by norm_num, by norm_num⟩
      (hd.trans (by norm_num)) (by rw [abs_of_pos, abs_of_pos] <;> norm_num) isCall

end Verif.Props
