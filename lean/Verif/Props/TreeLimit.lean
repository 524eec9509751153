import Verif.Lemmas.TreeLimit
import Verif.Props.Tree
import Verif.Props.GBSAccuracy

/-!
C68: as the number of steps grows, European tree prices converge to the Black–Scholes value.
-/
namespace Verif.Props
open Verif Verif.Spec Real MeasureTheory ProbabilityTheory Filter _root_.Verif.Tree
open scoped Topology

/-- Lattice with `n` steps. -/
def steps (S K t r b σ : ℝ) (n : ℕ) : Opt := ⟨S, K, t, r, b, σ, "european", n⟩

theorem payoff_cont (isCall : Bool) (S K : ℝ) : Continuous fun z : ℝ => payoff isCall (S * exp z) K := by
  cases isCall <;> simp only [payoff, Bool.false_eq_true, if_false, if_true] <;> fun_prop

theorem payoff_nonneg' (isCall : Bool) (s K : ℝ) : 0 ≤ payoff isCall s K := by
  cases isCall <;> simp [payoff]

theorem payoff_growth (isCall : Bool) (S K z : ℝ) : payoff isCall (S * exp z) K ≤ |K| + |S| * exp z := by
  have h : |S * exp z| = |S| * exp z := by rw [abs_mul, abs_of_pos (exp_pos z)]
  have h1 := le_abs_self (S * exp z)
  have h2 := neg_abs_le (S * exp z)
  have h3 := le_abs_self K
  have h4 := neg_abs_le K
  have h5 := abs_nonneg K
  have h6 := abs_nonneg (S * exp z)
  cases isCall <;> simp only [payoff, Bool.false_eq_true, if_false, if_true] <;> refine max_le ?_ ?_ <;> linarith

/-- The expectation on a lattice with positive factors, in terms of log returns. -/
theorem binomial_log {u d : ℝ} (hu : 0 < u) (hd : 0 < d) (Df p S K : ℝ) (isCall : Bool) (n : ℕ) :
    binomialExpectation Df p n (fun k => payoff isCall (node S u d n k) K)
      = Df ^ n * ∑ k ∈ Finset.range (n + 1),
          binW n p k * payoff isCall (S * exp (k * log u + (n - k) * log d)) K := by
  unfold binomialExpectation
  congr 1
  refine Finset.sum_congr rfl fun k hk => ?_
  have hk : k ≤ n := by have := Finset.mem_range.1 hk; omega
  have e : exp (k * log u + (n - k) * log d) = u ^ k * d ^ (n - k) := by
    rw [exp_add, ← Nat.cast_sub hk, exp_nat_mul, exp_nat_mul, exp_log hu, exp_log hd]
  rw [e, binW, ← mul_assoc S]
  rfl

theorem factors_pos (c : Cls) {o : Opt} (h : TreeValid o) : 0 < (factors c o).u ∧ 0 < (factors c o).d := by
  cases c
  · exact ⟨exp_pos _, (good_crr h).d_pos⟩
  · exact ⟨exp_pos _, exp_pos _⟩
  · exact ⟨(good_tian h).d_pos.trans (good_tian h).lt, (good_tian h).d_pos⟩

/-- **C68.** For each of the three binomial classes, every contract (any real `S` and `K`) and every `t, σ > 0`: the
European prices returned for `n = 1, 2, …` steps exist and converge to the Black–Scholes value. -/
theorem C68_binomial (c : Cls) (isCall : Bool) {t σ : ℝ} (ht : 0 < t) (hσ : 0 < σ) (S K r b : ℝ) :
    ∃ x : ℕ → ℝ, (∀ n > 0, price c ⟨S, K, t, r, b, σ, "european", n⟩ isCall = .ok (x n)) ∧
      Tendsto x atTop (𝓝 (bsPrice isCall S K t r b σ)) := by
  refine ⟨fun n => binomialExpectation (factors c (steps S K t r b σ n)).Df (factors c (steps S K t r b σ n)).p n
    (fun k => payoff isCall (node S (factors c (steps S K t r b σ n)).u (factors c (steps S K t r b σ n)).d n k) K),
    fun n hn => european_price c (steps S K t r b σ n) hn rfl isCall, ?_⟩
  have hv : ((σ ^ 2 * t).toNNReal : ℝ) = σ ^ 2 * t := Real.coe_toNNReal _ (by positivity)
  have hst := steps_factors c (steps S K t r b σ) ht hσ fun n => ⟨rfl, rfl, rfl, rfl⟩
  rw [← hv] at hst
  have hlim := hst.expect (payoff_cont isCall S K) (fun z => payoff_nonneg' _ _ _) (abs_nonneg K) (abs_nonneg S)
    (payoff_growth isCall S K)
  rw [integral_gauss_std ((b - σ ^ 2 / 2) * t) (σ * √t) _ (by rw [hv, mul_pow, sq_sqrt ht.le])] at hlim
  have hbs : bsPrice isCall S K t r b σ
      = exp (-r * t) * ∫ z, payoff isCall (S * exp ((b - σ ^ 2 / 2) * t + σ * √t * z)) K ∂(gaussianReal 0 1) := by
    cases isCall <;> rfl
  rw [hbs]
  refine (hlim.const_mul (exp (-r * t))).congr' ?_
  filter_upwards [eventually_gt_atTop 0] with n hn
  have hV : TreeValid (steps S K t r b σ n) := ⟨ht, hσ, hn⟩
  have hpos := factors_pos c hV
  rw [binomial_log hpos.1 hpos.2, Df_eq]
  congr 1
  exact (exp_div_pow (-r) t hn.ne').symm

/-- **C68** for the trinomial class. -/
theorem C68_trinomial (isCall : Bool) {t σ : ℝ} (ht : 0 < t) (hσ : 0 < σ) (S K r b : ℝ) :
    ∃ x : ℕ → ℝ, (∀ n > 0, price3 ⟨S, K, t, r, b, σ, "european", n⟩ isCall = .ok (x n)) ∧
      Tendsto x atTop (𝓝 (bsPrice isCall S K t r b σ)) := by
  obtain ⟨x, hx, hl⟩ := C68_binomial .crr isCall ht hσ S K r b
  refine ⟨fun n => x (2 * n), fun n hn => ?_, hl.comp (tendsto_id.const_mul_atTop' (by norm_num : 0 < 2))⟩
  rw [C25_trinomial_eq_crr _ ⟨ht, hσ, hn⟩ rfl]
  exact hx (2 * n) (by omega)

/-- **C68** across classes: for all large enough `n` the tree price agrees with the price of `GBSOption` up to the
error of its `CND` approximation plus any prescribed `ε`. -/
theorem C68_agrees_gbs (c : Cls) (isCall : Bool) {S K t σ : ℝ} (h : Valid S K t σ) (r b : ℝ) {ε : ℝ} (hε : 0 < ε) :
    ∃ g, (GBS.new S K t r b (some σ)).price isCall = .ok g ∧ ∃ N, ∀ n ≥ N, 0 < n →
      ∃ x, price c ⟨S, K, t, r, b, σ, "european", n⟩ isCall = .ok x ∧
        |x - g| ≤ 7.5e-8 * (S * exp ((b - r) * t) + K * exp (-r * t)) + ε := by
  obtain ⟨g, hg, he⟩ := C02_price_accuracy h r b isCall
  obtain ⟨x, hx, hl⟩ := C68_binomial c isCall h.t h.σ S K r b
  obtain ⟨N, hN⟩ := Metric.tendsto_atTop.1 hl ε hε
  refine ⟨g, hg, N, fun n hn hn0 => ⟨x n, hx n hn0, ?_⟩⟩
  have h1 := (hN n hn).le
  rw [Real.dist_eq] at h1
  calc |x n - g| = |(x n - bsPrice isCall S K t r b σ) - (g - bsPrice isCall S K t r b σ)| := by congr 1; ring
    _ ≤ |x n - bsPrice isCall S K t r b σ| + |g - bsPrice isCall S K t r b σ| := abs_sub _ _
    _ ≤ _ := by linarith

/-- The documented contract `S = K = 50`, five months, `r = b = 0.1`, `σ = 0.4` meets the hypotheses. -/
example : Valid (50 : ℝ) 50 (5 / 12) (2 / 5) := ⟨by norm_num, by norm_num, by norm_num, by norm_num⟩

end Verif.Props
