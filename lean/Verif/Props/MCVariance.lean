import Verif.Props.MCExpect
import Verif.Lemmas.Harris
import Mathlib.Probability.Moments.Variance
import Mathlib.Algebra.Order.Chebyshev

/-!
C83: variance of the Monte Carlo estimates, effect of antithetic paths, and the probability of an error.
-/
namespace Verif.Props
open Verif Verif.Spec Real MeasureTheory ProbabilityTheory Filter
open scoped Topology ENNReal

/-- Discounted payoff of one path with innovations `w`. -/
noncomputable def mcPay (k : MC.Kind) (call : Bool) {n : ℕ} (S K t r b σ : ℝ) (w : Fin n → ℝ) : ℝ :=
  exp (-r * t) * (if call then max (mcPrice k S t b σ w - K) 0 else max (K - mcPrice k S t b σ w) 0)

/-- Discounted payoff averaged over a path and its mirror image. -/
noncomputable def mcPair (k : MC.Kind) (call : Bool) {n : ℕ} (S K t r b σ : ℝ) (w : Fin n → ℝ) : ℝ :=
  (mcPay k call S K t r b σ w + mcPay k call S K t r b σ (fun m => -w m)) / 2

theorem mcPay_eq (k : MC.Kind) (call : Bool) {n : ℕ} (S K t r b σ : ℝ) (w : Fin n → ℝ) :
    mcPay k call S K t r b σ w = exp (-r * t) * MC.pay k call S K t b σ w := by
  cases k <;> rfl

/-! ### Square integrability -/

theorem memLp_exp_sum {n : ℕ} (s : Finset (Fin n)) (c : ℝ) :
    MemLp (fun z => exp (c * ∑ i ∈ s, z i)) 2 (stdNormal n) := by
  rw [memLp_two_iff_integrable_sq (by fun_prop)]
  have := integrable_exp_sum s (2 * c)
  refine this.congr (ae_of_all _ fun z => ?_)
  simp only
  rw [← exp_nat_mul]
  congr 1
  push_cast
  ring

theorem memLp_mcPrice (k : MC.Kind) (n : ℕ) (S t b σ : ℝ) :
    MemLp (fun z : Fin n → ℝ => mcPrice k S t b σ z) 2 (stdNormal n) := by
  cases k with
  | vanilla =>
    simp only [mcPrice, pathEnd, exp_add]
    exact ((memLp_exp_sum _ _).const_mul _).const_mul _
  | asian =>
    simp only [mcPrice, pathAverage, logPrice, exp_add, div_eq_mul_inv]
    exact (memLp_finsetSum _ fun j _ => ((memLp_exp_sum _ _).const_mul _).const_mul _).mul_const _

theorem measurable_mcPay (k : MC.Kind) (call : Bool) (n : ℕ) (S K t r b σ : ℝ) :
    Measurable (fun z : Fin n → ℝ => mcPay k call S K t r b σ z) := by
  simp only [mcPay_eq]
  exact (MC.measurable_pay k call n S K t b σ).const_mul _

theorem memLp_mcPay (k : MC.Kind) (call : Bool) (n : ℕ) (S K t r b σ : ℝ) :
    MemLp (fun z : Fin n → ℝ => mcPay k call S K t r b σ z) 2 (stdNormal n) := by
  refine MemLp.const_mul ?_ _
  have h : MemLp (fun z : Fin n → ℝ => mcPrice k S t b σ z - K) 2 (stdNormal n) :=
    (memLp_mcPrice k n S t b σ).sub (memLp_const K)
  cases call
  · simp only [Bool.false_eq_true, if_false]
    have h' : MemLp (fun z : Fin n → ℝ => K - mcPrice k S t b σ z) 2 (stdNormal n) :=
      (memLp_const K).sub (memLp_mcPrice k n S t b σ)
    exact h'.pos_part
  · simp only [if_true]
    exact h.pos_part

theorem memLp_mcPay_neg (k : MC.Kind) (call : Bool) (n : ℕ) (S K t r b σ : ℝ) :
    MemLp (fun z : Fin n → ℝ => mcPay k call S K t r b σ (fun m => -z m)) 2 (stdNormal n) :=
  (memLp_mcPay k call n S K t r b σ).comp_measurePreserving (measurePreserving_neg_stdNormal n)

theorem memLp_mcPair (k : MC.Kind) (call : Bool) (n : ℕ) (S K t r b σ : ℝ) :
    MemLp (fun z : Fin n → ℝ => mcPair k call S K t r b σ z) 2 (stdNormal n) := by
  simp only [mcPair, div_eq_mul_inv]
  exact ((memLp_mcPay k call n S K t r b σ).add (memLp_mcPay_neg k call n S K t r b σ)).mul_const _

/-! ### Antithetic paths -/

theorem mcPrice_mono (k : MC.Kind) {n : ℕ} {S : ℝ} (hS : 0 ≤ S) (t b : ℝ) {σ : ℝ} (hσ : 0 ≤ σ) :
    Monotone (fun z : Fin n → ℝ => mcPrice k S t b σ z) := by
  intro z w h
  have hc : 0 ≤ σ * √(t / n) := by positivity
  cases k with
  | vanilla =>
    simp only [mcPrice, pathEnd]
    gcongr with i _
    exact h i
  | asian =>
    simp only [mcPrice, pathAverage, logPrice]
    gcongr with j _ i _
    exact h i

theorem mcPrice_anti (k : MC.Kind) {n : ℕ} {S : ℝ} (hS : 0 ≤ S) (t b : ℝ) {σ : ℝ} (hσ : σ ≤ 0) :
    Antitone (fun z : Fin n → ℝ => mcPrice k S t b σ z) := by
  intro z w h
  have e : ∀ z : Fin n → ℝ, mcPrice k S t b σ z = mcPrice k S t b (-σ) (fun i => -z i) := by
    intro z
    cases k with
    | vanilla => simp only [mcPrice, pathEnd, Finset.sum_neg_distrib]; ring_nf
    | asian =>
      simp only [mcPrice, pathAverage, logPrice, Finset.sum_neg_distrib]
      congr 1
      refine Finset.sum_congr rfl fun j _ => ?_
      congr 2
      ring
  simp only
  rw [e z, e w]
  exact mcPrice_mono k hS t b (by linarith : 0 ≤ -σ) fun i => neg_le_neg (h i)

theorem mcPay_mono (k : MC.Kind) (call : Bool) {n : ℕ} {S : ℝ} (hS : 0 ≤ S) (K t r b σ : ℝ) :
    Monotone (fun z : Fin n → ℝ => mcPay k call S K t r b σ z) ∨
    Antitone (fun z : Fin n → ℝ => mcPay k call S K t r b σ z) := by
  have hE := (exp_pos (-r * t)).le
  rcases le_total 0 σ with hσ | hσ
  · have := mcPrice_mono (n := n) k hS t b hσ
    cases call
    · right
      intro z w h
      have := this h
      simp only [mcPay, Bool.false_eq_true, if_false] at *
      gcongr
    · left
      intro z w h
      have := this h
      simp only [mcPay, if_true] at *
      gcongr
  · have := mcPrice_anti (n := n) k hS t b hσ
    cases call
    · left
      intro z w h
      have := this h
      simp only [mcPay, Bool.false_eq_true, if_false] at *
      gcongr
    · right
      intro z w h
      have := this h
      simp only [mcPay, if_true] at *
      gcongr

theorem mcPay_nonneg (k : MC.Kind) (call : Bool) {n : ℕ} (S K t r b σ : ℝ) (z : Fin n → ℝ) :
    0 ≤ mcPay k call S K t r b σ z := by
  unfold mcPay
  have := (exp_pos (-r * t)).le
  split_ifs <;> positivity

/-- **C83.** Averaging each path with its mirror image at least halves the variance of a path's contribution: with the
same number of simulated payoffs, antithetic paths never increase the variance of the estimate. -/
theorem C83_antithetic (k : MC.Kind) (call : Bool) (n : ℕ) {S : ℝ} (hS : 0 ≤ S) (K t r b σ : ℝ) :
    Var[mcPair k call S K t r b σ; stdNormal n] ≤ Var[mcPay k call S K t r b σ; stdNormal n] / 2 := by
  have h1 := memLp_mcPay k call n S K t r b σ
  have h2 := memLp_mcPay_neg k call n S K t r b σ
  have m1 := measurable_mcPay k call n S K t r b σ
  have hneg : HasLaw (fun (z : Fin n → ℝ) m => -z m) (stdNormal n) (stdNormal n) :=
    (measurePreserving_neg_stdNormal n).hasLaw
  have m2 : Measurable (fun z : Fin n → ℝ => mcPay k call S K t r b σ (fun m => -z m)) :=
    m1.comp (by fun_prop)
  have eV : Var[fun z : Fin n → ℝ => mcPay k call S K t r b σ (fun m => -z m); stdNormal n]
      = Var[mcPay k call S K t r b σ; stdNormal n] := by
    conv_rhs => rw [← hneg.map_eq, variance_map m1.aemeasurable hneg.aemeasurable]
    rfl
  have hcov : cov[mcPay k call S K t r b σ, fun z : Fin n → ℝ => mcPay k call S K t r b σ (fun m => -z m); stdNormal n] ≤ 0 := by
    rw [covariance_eq_sub h1 h2, sub_nonpos]
    have I1 := h1.integrable one_le_two
    have I2 := h2.integrable one_le_two
    have I12 : Integrable (fun z : Fin n → ℝ => mcPay k call S K t r b σ z * mcPay k call S K t r b σ (fun m => -z m)) (stdNormal n) :=
      h1.integrable_mul h2
    have hn := mcPay_nonneg (n := n) k call S K t r b σ
    rcases mcPay_mono (n := n) k call hS K t r b σ with h | h
    · exact integral_mul_le_pi (fun _ => gaussianReal 0 1) m1 m2 hn (fun z => hn _) h
        (fun z w hzw => h fun i => neg_le_neg (hzw i)) I1 I2 I12
    · have := integral_mul_le_pi (fun _ => gaussianReal 0 1) m2 m1 (fun z => hn _) hn
        (fun z w hzw => h fun i => neg_le_neg (hzw i)) h I2 I1 (I12.congr (ae_of_all _ fun z => mul_comm _ _))
      refine le_trans (le_of_eq ?_) (this.trans (le_of_eq (mul_comm _ _)))
      exact integral_congr_ae (ae_of_all _ fun z => mul_comm _ _)
  have e : mcPair k call S K t r b σ = fun z : Fin n → ℝ =>
      (1 / 2) * ((fun z => mcPay k call S K t r b σ z) z + mcPay k call S K t r b σ (fun m => -z m)) := by
    funext z; simp only [mcPair]; ring
  rw [e, variance_const_mul, variance_fun_add h1 h2, eV]
  have : Var[fun z : Fin n → ℝ => mcPay k call S K t r b σ z; stdNormal n] = Var[mcPay k call S K t r b σ; stdNormal n] := rfl
  rw [this]
  have : cov[fun z : Fin n → ℝ => mcPay k call S K t r b σ z, fun z : Fin n → ℝ => mcPay k call S K t r b σ (fun m => -z m); stdNormal n] ≤ 0 := hcov
  linarith

/-! ### Variance of the estimate -/

variable {Ω : Type} [MeasurableSpace Ω] {P : Measure Ω}

/-- The contribution of a path to a loop. -/
noncomputable def mcTerm (k : MC.Kind) (anti call : Bool) {n : ℕ} (S K t r b σ : ℝ) (w : Fin n → ℝ) : ℝ :=
  if anti then mcPair k call S K t r b σ w else mcPay k call S K t r b σ w

theorem measurable_mcTerm (k : MC.Kind) (anti call : Bool) (n : ℕ) (S K t r b σ : ℝ) :
    Measurable (fun z : Fin n → ℝ => mcTerm k anti call S K t r b σ z) := by
  have m1 := measurable_mcPay k call n S K t r b σ
  cases anti
  · exact m1
  · simp only [mcTerm, if_true, mcPair]
    exact (m1.add (m1.comp (by fun_prop : Measurable fun (z : Fin n → ℝ) m => -z m))).div_const 2

theorem memLp_mcTerm (k : MC.Kind) (anti call : Bool) (n : ℕ) (S K t r b σ : ℝ) :
    MemLp (fun z : Fin n → ℝ => mcTerm k anti call S K t r b σ z) 2 (stdNormal n) := by
  cases anti
  · exact memLp_mcPay k call n S K t r b σ
  · exact memLp_mcPair k call n S K t r b σ

/-- A loop is the average of the contributions of its paths. -/
theorem loop_terms {loops n p : ℕ} {S K t r b σ : ℝ} {anti tr : Bool} {o : MC.Opt} (hp : 0 < p)
    (ho : MC.new loops n S K t r b σ anti false tr = .ok o) (k : MC.Kind) (call : Bool) (z : ℕ → Fin p → Fin n → ℝ) :
    ∃ it, MC.price k o call (fun i => List.ofFn fun j => List.ofFn fun m => z i j m) = .ok it ∧
      ∀ i < loops, it[i]? = some ((∑ j, mcTerm k anti call S K t r b σ (z i j)) / p) := by
  cases anti with
  | false =>
    obtain ⟨it, h1, h2, h3⟩ := C43_price ho k call (fun i => List.ofFn fun j => List.ofFn fun m => z i j m)
      (fun _ => p) z (fun i _ => prep_ofFn false (z i))
    refine ⟨it, h1, fun i hi => ?_⟩
    rw [h3 i hi]
    rfl
  | true =>
    obtain ⟨it, h1, h2, h3⟩ := C43_price ho k call (fun i => List.ofFn fun j => List.ofFn fun m => z i j m)
      (fun _ => p + p) (fun i => Fin.append (z i) (fun j m => -z i j m)) (fun i _ => prep_ofFn true (z i))
    refine ⟨it, h1, fun i hi => ?_⟩
    rw [h3 i hi, mcValue, Fin.sum_univ_add]
    simp only [Fin.append_left, Fin.append_right]
    rw [← Finset.sum_add_distrib]
    congr 1
    have hp' : (p : ℝ) ≠ 0 := by exact_mod_cast hp.ne'
    rw [div_eq_div_iff (by push_cast; positivity) hp', Finset.sum_mul, Finset.sum_mul]
    refine Finset.sum_congr rfl fun j _ => ?_
    simp only [mcTerm, if_true, mcPair, mcPay]
    push_cast
    ring

/-- **C83.** Let the paths of a loop be independent, with independent standard normal innovations. The variance of the
loop's result is the variance of one path's contribution (with antithetic paths: of the average over the path and its
mirror image) divided by the number of paths drawn, for every number of time steps. -/
theorem C83_variance [IsProbabilityMeasure P] {loops n p : ℕ} {S K t r b σ : ℝ} {anti tr : Bool} {o : MC.Opt} (hp : 0 < p)
    (ho : MC.new loops n S K t r b σ anti false tr = .ok o) (k : MC.Kind) (call : Bool)
    (z : ℕ → Fin p → Fin n → Ω → ℝ) (hpath : ∀ i, iIndepFun (fun j ω m => z i j m ω) P)
    (hind : ∀ i j, iIndepFun (z i j) P) (hlaw : ∀ i j m, HasLaw (z i j m) (gaussianReal 0 1) P) :
    ∃ it : Ω → List ℝ,
      (∀ ω, MC.price k o call (fun i => List.ofFn fun j => List.ofFn fun m => z i j m ω) = .ok (it ω)) ∧
      ∀ i < loops, ∃ x : Ω → ℝ, (∀ ω, (it ω)[i]? = some (x ω)) ∧ MemLp x 2 P ∧
        Var[x; P] = (if anti then Var[mcPair k call S K t r b σ; stdNormal n]
          else Var[mcPay k call S K t r b σ; stdNormal n]) / p := by
  have h := fun ω => loop_terms hp ho k call (fun i j m => z i j m ω)
  choose it h1 h2 using h
  refine ⟨it, h1, fun i hi => ⟨_, fun ω => h2 ω i hi, ?_⟩⟩
  have hrow : ∀ j, HasLaw (fun ω m => z i j m ω) (stdNormal n) P := fun j => (hind i j).hasLaw_pi (hlaw i j)
  have hm := measurable_mcTerm k anti call n S K t r b σ
  have hL := memLp_mcTerm k anti call n S K t r b σ
  have hX : ∀ j, MemLp (fun ω => mcTerm k anti call S K t r b σ (fun m => z i j m ω)) 2 P := by
    intro j
    have h := hL
    rw [← (hrow j).map_eq] at h
    exact h.comp_of_map (hrow j).aemeasurable
  have hV : ∀ j, Var[fun ω => mcTerm k anti call S K t r b σ (fun m => z i j m ω); P]
      = Var[mcTerm k anti call S K t r b σ; stdNormal n] := by
    intro j
    conv_rhs => rw [← (hrow j).map_eq, variance_map hm.aemeasurable (hrow j).aemeasurable]
    rfl
  have hp' : (p : ℝ) ≠ 0 := by exact_mod_cast hp.ne'
  have e : (fun ω => (∑ j, mcTerm k anti call S K t r b σ (fun m => z i j m ω)) / (p : ℝ))
      = fun ω => (p : ℝ)⁻¹ * (∑ j, fun ω => mcTerm k anti call S K t r b σ (fun m => z i j m ω)) ω := by
    funext ω; rw [Finset.sum_apply, div_eq_inv_mul]
  rw [e]
  refine ⟨(memLp_finsetSum' _ fun j _ => hX j).const_mul _, ?_⟩
  rw [variance_const_mul, IndepFun.variance_sum (fun j _ => hX j)
    (fun j _ j' _ hj => ((hpath i).indepFun hj).comp hm hm), Finset.sum_congr rfl fun j _ => hV j, Finset.sum_const,
    Finset.card_univ, Fintype.card_fin, nsmul_eq_mul]
  have : Var[mcTerm k anti call S K t r b σ; stdNormal n] = if anti then Var[mcPair k call S K t r b σ; stdNormal n]
      else Var[mcPay k call S K t r b σ; stdNormal n] := by cases anti <;> rfl
  rw [this]
  field_simp

/-- Second moment of the simulated price: `S² e^{(2b+σ²)t}` at maturity, at most the mean of the second moments along
the path for the average. -/
noncomputable def mcSecond (k : MC.Kind) (n : ℕ) (S t b σ : ℝ) : ℝ :=
  match k with
  | .vanilla => S ^ 2 * exp ((2 * b + σ ^ 2) * t)
  | .asian => (∑ j : Fin n, S ^ 2 * exp ((2 * b + σ ^ 2) * (t * ((j : ℝ) + 1) / n))) / n

theorem second_moment (k : MC.Kind) {n : ℕ} (hn : 0 < n) {t : ℝ} (ht : 0 ≤ t) (S b σ : ℝ) :
    ∫ z, mcPrice k S t b σ z ^ 2 ∂stdNormal n ≤ mcSecond k n S t b σ := by
  have hn' : (n : ℝ) ≠ 0 := by exact_mod_cast hn.ne'
  cases k with
  | vanilla =>
    simp only [mcPrice, mcSecond, pathEnd]
    have e : ∀ z : Fin n → ℝ, (S * exp ((b - σ ^ 2 / 2) * t + σ * √(t / n) * ∑ i, z i)) ^ 2
        = S ^ 2 * exp (2 * ((b - σ ^ 2 / 2) * t)) * exp (2 * (σ * √(t / n)) * ∑ i, z i) := by
      intro z
      rw [mul_pow, ← exp_nat_mul, mul_assoc (S ^ 2), ← exp_add]
      congr 2
      push_cast
      ring
    simp only [e]
    rw [integral_const_mul, integral_exp_sum, mul_assoc, ← exp_add, Finset.card_univ, Fintype.card_fin, mul_pow, mul_pow,
      sq_sqrt (by positivity)]
    refine le_of_eq ?_
    congr 2
    field_simp
    ring
  | asian =>
    simp only [mcPrice, mcSecond, pathAverage]
    have e : ∀ (z : Fin n → ℝ) (j : Fin n), (S * exp (logPrice t b σ z j)) ^ 2
        = S ^ 2 * exp (2 * ((b - σ ^ 2 / 2) * (t * ((j : ℝ) + 1) / n))) *
          exp (2 * (σ * √(t / n)) * ∑ i ∈ Finset.univ.filter (· ≤ j), z i) := by
      intro z j
      rw [mul_pow, ← exp_nat_mul, mul_assoc, ← exp_add, logPrice]
      congr 2
      push_cast
      ring
    have hint : ∀ j : Fin n, Integrable (fun z => (S * exp (logPrice t b σ z j)) ^ 2) (stdNormal n) := by
      intro j
      simp only [e]
      exact (integrable_exp_sum _ _).const_mul _
    have hval : ∀ j : Fin n, ∫ z, (S * exp (logPrice t b σ z j)) ^ 2 ∂stdNormal n
        = S ^ 2 * exp ((2 * b + σ ^ 2) * (t * ((j : ℝ) + 1) / n)) := by
      intro j
      simp only [e]
      rw [integral_const_mul, integral_exp_sum, mul_assoc, ← exp_add, MC.card_le_fin, mul_pow, mul_pow,
        sq_sqrt (by positivity)]
      congr 2
      push_cast
      field_simp
      ring
    calc ∫ z, ((∑ j, S * exp (logPrice t b σ z j)) / n) ^ 2 ∂stdNormal n
        ≤ ∫ z, (∑ j, (S * exp (logPrice t b σ z j)) ^ 2) / n ∂stdNormal n := by
          refine integral_mono ?_ ((integrable_finsetSum _ fun j _ => hint j).div_const _) fun z => ?_
          · exact (memLp_mcPrice .asian n S t b σ).integrable_sq
          · have := sq_sum_le_card_mul_sum_sq (s := (Finset.univ : Finset (Fin n))) (f := fun j => S * exp (logPrice t b σ z j))
            rw [Finset.card_univ, Fintype.card_fin] at this
            simp only
            rw [div_pow, div_le_div_iff₀ (by positivity) (by positivity)]
            calc (∑ j, S * exp (logPrice t b σ z j)) ^ 2 * (n : ℝ) ≤ (n * ∑ j, (S * exp (logPrice t b σ z j)) ^ 2) * n := by gcongr
              _ = _ := by ring
      _ = _ := by
          rw [integral_div, integral_finsetSum _ fun j _ => hint j, Finset.sum_congr rfl fun j _ => hval j]

/-- **C83.** Explicit bounds on the variance of a path's discounted payoff: for puts a quarter of the squared discounted
strike, for calls the discounted second moment of the simulated price. -/
theorem C83_bound (k : MC.Kind) {n : ℕ} (hn : 0 < n) {S K t : ℝ} (hS : 0 ≤ S) (hK : 0 ≤ K) (ht : 0 ≤ t) (r b σ : ℝ) (call : Bool) :
    Var[mcPay k call S K t r b σ; stdNormal n]
      ≤ exp (-r * t) ^ 2 * (if call then mcSecond k n S t b σ else (K / 2) ^ 2) := by
  have hE := exp_pos (-r * t)
  have hpos : ∀ z : Fin n → ℝ, 0 ≤ mcPrice k S t b σ z := by
    intro z; cases k
    · simp only [mcPrice, pathEnd]; positivity
    · simp only [mcPrice, pathAverage]; positivity
  cases call
  · simp only [Bool.false_eq_true, if_false]
    have := variance_le_sq_of_bounded (μ := stdNormal n) (X := mcPay k false S K t r b σ) (a := 0) (b := exp (-r * t) * K)
      (ae_of_all _ fun z => ⟨mcPay_nonneg k false S K t r b σ z, ?_⟩) (measurable_mcPay k false n S K t r b σ).aemeasurable
    · refine this.trans (le_of_eq ?_); ring
    · simp only [mcPay, Bool.false_eq_true, if_false]
      exact mul_le_mul_of_nonneg_left (max_le (by linarith [hpos z]) hK) hE.le
  · simp only [if_true]
    refine (variance_le_expectation_sq (measurable_mcPay k true n S K t r b σ).aestronglyMeasurable).trans ?_
    have hm : MemLp (fun z : Fin n → ℝ => mcPrice k S t b σ z) 2 (stdNormal n) := memLp_mcPrice k n S t b σ
    calc ∫ z, (mcPay k true S K t r b σ ^ 2) z ∂stdNormal n
        ≤ ∫ z, exp (-r * t) ^ 2 * mcPrice k S t b σ z ^ 2 ∂stdNormal n := by
          refine integral_mono (memLp_mcPay k true n S K t r b σ).integrable_sq (hm.integrable_sq.const_mul _) fun z => ?_
          simp only [Pi.pow_apply, mcPay, if_true, mul_pow]
          have h0 : max (mcPrice k S t b σ z - K) 0 ≤ mcPrice k S t b σ z := max_le (by linarith) (hpos z)
          have h1 : 0 ≤ max (mcPrice k S t b σ z - K) 0 := le_max_right _ _
          gcongr
      _ ≤ _ := by
          rw [integral_const_mul]
          exact mul_le_mul_of_nonneg_left (second_moment k hn ht S b σ) (sq_nonneg _)

/-- **C83.** Error probability: the chance that the result of a loop misses the exact value (Black–Scholes for the
vanilla payoff) by `c` or more is at most the explicit variance bound over `mc_paths · c²`, half of that with
antithetic paths. -/
theorem C83_error [IsProbabilityMeasure P] {loops n p : ℕ} {S K t r b σ : ℝ} {anti tr : Bool} {o : MC.Opt} (hp : 0 < p)
    (hS : 0 ≤ S) (hK : 0 ≤ K) (ht : 0 ≤ t)
    (ho : MC.new loops n S K t r b σ anti false tr = .ok o) (k : MC.Kind) (call : Bool)
    (z : ℕ → Fin p → Fin n → Ω → ℝ) (hpath : ∀ i, iIndepFun (fun j ω m => z i j m ω) P)
    (hind : ∀ i j, iIndepFun (z i j) P) (hlaw : ∀ i j m, HasLaw (z i j m) (gaussianReal 0 1) P) :
    ∃ it : Ω → List ℝ,
      (∀ ω, MC.price k o call (fun i => List.ofFn fun j => List.ofFn fun m => z i j m ω) = .ok (it ω)) ∧
      ∀ i < loops, ∃ x : Ω → ℝ, (∀ ω, (it ω)[i]? = some (x ω)) ∧ ∀ c, 0 < c →
        P {ω | c ≤ |x ω - mcTarget k n call S K t r b σ|}
          ≤ ENNReal.ofReal (exp (-r * t) ^ 2 * (if call then mcSecond k n S t b σ else (K / 2) ^ 2)
              / (if anti then 2 else 1) / p / c ^ 2) := by
  have hn : 0 < n := Nat.pos_of_ne_zero ((C43_new loops n S K t r b σ anti false tr).1 ⟨o, ho⟩)
  obtain ⟨it, h1, h2⟩ := C83_variance hp ho k call z hpath hind hlaw
  obtain ⟨it', h1', h2'⟩ := C61_unbiased hp ht ho k call z hind hlaw
  have hit : it = it' := by
    funext ω
    have := (h1 ω).symm.trans (h1' ω)
    injection this
  subst hit
  refine ⟨it, h1, fun i hi => ?_⟩
  obtain ⟨x, hx, hL, hV⟩ := h2 i hi
  obtain ⟨y, hy, -, hE⟩ := h2' i hi
  have hxy : x = y := by
    funext ω
    have := (hx ω).symm.trans (hy ω)
    injection this
  subst hxy
  refine ⟨x, hx, fun c hc => ?_⟩
  have hch := meas_ge_le_variance_div_sq hL hc
  rw [hE] at hch
  refine hch.trans (ENNReal.ofReal_le_ofReal ?_)
  rw [hV]
  have hb := C83_bound k hn hS hK ht r b σ call
  have ha := C83_antithetic k call n hS K t r b σ
  have hp' : (0:ℝ) < p := by exact_mod_cast hp
  cases anti
  · simp only [Bool.false_eq_true, if_false, div_one]
    gcongr
  · simp only [if_true]
    gcongr
    linarith

/-- Hypotheses met: such innovations exist for every number of loops, paths and steps. -/
theorem C83_example (n p : ℕ) : ∃ (P : Measure (ℕ → Fin n → ℝ)) (z : ℕ → Fin p → Fin n → (ℕ → Fin n → ℝ) → ℝ),
    IsProbabilityMeasure P ∧ (∀ i, iIndepFun (fun j ω m => z i j m ω) P) ∧
    (∀ i j, iIndepFun (z i j) P) ∧ ∀ i j m, HasLaw (z i j m) (gaussianReal 0 1) P := by
  obtain ⟨P, z, h1, h2, h3, h4⟩ := C62_example n
  exact ⟨P, fun _ j => z j, h1, fun _ => h2.precomp Fin.val_injective, fun _ j => h3 j, fun _ j => h4 j⟩

end Verif.Props
