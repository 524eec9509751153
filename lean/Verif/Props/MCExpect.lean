import Verif.Lemmas.MCLaw
import Verif.Props.MC
import Mathlib.Probability.StrongLaw
import Mathlib.Probability.Independence.InfinitePi

/-!
C61, C62: the Monte Carlo estimates are unbiased and consistent when the innovations are independent
standard normal.
-/
namespace Verif.Props
open Verif Verif.Spec Real MeasureTheory ProbabilityTheory Filter
open scoped Topology

/-- The exact value the simulation aims at: Black–Scholes for the vanilla payoff, the expectation of the discounted
payoff on the arithmetic average for the Asian one. -/
noncomputable def mcTarget (k : MC.Kind) (n : ℕ) (call : Bool) (S K t r b σ : ℝ) : ℝ :=
  match k with
  | .vanilla => bsPrice call S K t r b σ
  | .asian => asianValue n call S K t r b σ

theorem fair_eq (k : MC.Kind) {n : ℕ} (hn : 0 < n) {t : ℝ} (ht : 0 ≤ t) (call : Bool) (S K r b σ : ℝ) :
    MC.fair k n call S K t r b σ = mcTarget k n call S K t r b σ := by
  cases k with
  | vanilla => exact MC.fair_vanilla hn ht call S K r b σ
  | asian => rfl

theorem mcValue_pay (k : MC.Kind) (call : Bool) {p n : ℕ} (S K t r b σ : ℝ) (z : Fin p → Fin n → ℝ) :
    mcValue k call S K t r b σ z = (∑ i, exp (-r * t) * MC.pay k call S K t b σ (z i)) / p := by
  have hspec : ∀ (w : Fin n → ℝ), k.spec S t b σ w = mcPrice k S t b σ w := by
    intro w; cases k <;> rfl
  simp only [mcValue, MC.pay, hspec]

variable {Ω : Type} [MeasurableSpace Ω] {P : Measure Ω}

/-- Expectation of a loop whose paths all have standard normal innovations. -/
theorem expect_value {p n : ℕ} (hp : 0 < p) (k : MC.Kind) (call : Bool) (S K t r b σ : ℝ)
    (z : Fin p → Ω → Fin n → ℝ) (hz : ∀ j, HasLaw (z j) (stdNormal n) P) :
    Integrable (fun ω => mcValue k call S K t r b σ (fun j => z j ω)) P ∧
    ∫ ω, mcValue k call S K t r b σ (fun j => z j ω) ∂P = MC.fair k n call S K t r b σ := by
  have hp' : (p : ℝ) ≠ 0 := by exact_mod_cast hp.ne'
  have hint : ∀ j, Integrable (fun ω => exp (-r * t) * MC.pay k call S K t b σ (z j ω)) P := by
    intro j
    have h := MC.integrable_pay k call n S K t b σ
    rw [← (hz j).map_eq] at h
    exact (h.comp_aemeasurable (hz j).aemeasurable).const_mul _
  have hval : ∀ j, ∫ ω, exp (-r * t) * MC.pay k call S K t b σ (z j ω) ∂P = MC.fair k n call S K t r b σ := by
    intro j
    rw [integral_const_mul, MC.fair]
    congr 1
    exact (hz j).integral_comp (MC.measurable_pay k call n S K t b σ).aestronglyMeasurable
  simp only [mcValue_pay]
  refine ⟨(integrable_finsetSum _ fun j _ => hint j).div_const _, ?_⟩
  rw [integral_div, integral_finsetSum _ fun j _ => hint j, Finset.sum_congr rfl fun j _ => hval j,
    Finset.sum_const, Finset.card_univ, Fintype.card_fin, nsmul_eq_mul]
  field_simp

/-- The innovations a loop uses, with or without antithetic paths. -/
theorem prep_ofFn {p n : ℕ} (anti : Bool) (z : Fin p → Fin n → ℝ) :
    MC.prep anti false (List.ofFn fun j => List.ofFn (z j))
      = if anti then List.ofFn fun j : Fin (p + p) => List.ofFn (Fin.append z (fun j k => -z j k) j)
        else List.ofFn fun j => List.ofFn (z j) := by
  cases anti
  · rfl
  · simp only [MC.prep, MC.antithetic, if_true, Bool.false_eq_true, if_false]
    have : (fun j : Fin (p + p) => List.ofFn (Fin.append z (fun j k => -z j k) j))
        = Fin.append (fun j => List.ofFn (z j)) (fun j => List.ofFn fun k => -z j k) := by
      funext j
      refine Fin.addCases (fun i => ?_) (fun i => ?_) j <;> simp only [Fin.append_left, Fin.append_right]
    rw [this, List.ofFn_fin_append, List.map_ofFn]
    congr 2
    funext j
    simp [List.map_ofFn, Function.comp_def]

theorem law_neg {n : ℕ} {z : Ω → Fin n → ℝ} (h : HasLaw z (stdNormal n) P) :
    HasLaw (fun ω k => -z ω k) (stdNormal n) P :=
  (measurePreserving_neg_stdNormal n).hasLaw.comp h

/-- **C61.** Let the innovations of each path be independent standard normal variables (whatever the dependence
between paths). Then each entry of the array returned by `call()` or `put()`, with or without antithetic paths,
has expectation exactly the Black–Scholes value for the vanilla payoff, and the exact discrete-average Asian
value for the Asian payoff, for every number of time steps. -/
theorem C61_unbiased {loops n p : ℕ} {S K t r b σ : ℝ} {anti tr : Bool} {o : MC.Opt} (hp : 0 < p) (ht : 0 ≤ t)
    (ho : MC.new loops n S K t r b σ anti false tr = .ok o) (k : MC.Kind) (call : Bool)
    (z : ℕ → Fin p → Fin n → Ω → ℝ)
    (hind : ∀ i j, iIndepFun (z i j) P) (hlaw : ∀ i j m, HasLaw (z i j m) (gaussianReal 0 1) P) :
    ∃ it : Ω → List ℝ,
      (∀ ω, MC.price k o call (fun i => List.ofFn fun j => List.ofFn fun m => z i j m ω) = .ok (it ω)) ∧
      ∀ i < loops, ∃ x : Ω → ℝ, (∀ ω, (it ω)[i]? = some (x ω)) ∧ Integrable x P ∧
        ∫ ω, x ω ∂P = mcTarget k n call S K t r b σ := by
  have hn : 0 < n := Nat.pos_of_ne_zero ((C43_new loops n S K t r b σ anti false tr).1 ⟨o, ho⟩)
  have hrow : ∀ i j, HasLaw (fun ω m => z i j m ω) (stdNormal n) P := fun i j =>
    (hind i j).hasLaw_pi (hlaw i j)
  rw [← fair_eq k hn ht call S K r b σ]
  cases anti with
  | false =>
    have h := fun ω => C43_price ho k call (fun i => List.ofFn fun j => List.ofFn fun m => z i j m ω) (fun _ => p)
      (fun i j m => z i j m ω) (fun i _ => prep_ofFn false (fun j m => z i j m ω))
    choose it h1 h2 h3 using h
    refine ⟨it, h1, fun i hi => ⟨_, fun ω => h3 ω i hi, ?_⟩⟩
    exact expect_value hp k call S K t r b σ (fun j ω m => z i j m ω) (hrow i)
  | true =>
    have h := fun ω => C43_price ho k call (fun i => List.ofFn fun j => List.ofFn fun m => z i j m ω) (fun _ => p + p)
      (fun i => Fin.append (fun j m => z i j m ω) (fun j m => -z i j m ω))
      (fun i _ => prep_ofFn true (fun j m => z i j m ω))
    choose it h1 h2 h3 using h
    refine ⟨it, h1, fun i hi => ⟨_, fun ω => h3 ω i hi, ?_⟩⟩
    have e : ∀ (ω : Ω) (j : Fin (p + p)), Fin.append (fun j m => z i j m ω) (fun j m => -z i j m ω) j
        = Fin.append (fun j ω m => z i j m ω) (fun j ω m => -z i j m ω) j ω := by
      intro ω j
      refine Fin.addCases (fun i => ?_) (fun i => ?_) j <;> simp only [Fin.append_left, Fin.append_right]
    have e' : ∀ ω : Ω, Fin.append (fun j m => z i j m ω) (fun j m => -z i j m ω)
        = fun j => Fin.append (fun j ω m => z i j m ω) (fun j ω m => -z i j m ω) j ω := fun ω => funext (e ω)
    simp only [e']
    refine expect_value (by omega) k call S K t r b σ _ fun j => ?_
    refine Fin.addCases (fun l => ?_) (fun l => ?_) j
    · rw [Fin.append_left]; exact hrow i l
    · rw [Fin.append_right]; exact law_neg (hrow i l)

/-- **C61.** The expected Asian call and put satisfy parity with the exact expected average
`(S/n) Σ exp(b t (j+1)/n)`. -/
theorem C61_asian_parity {n : ℕ} (hn : 0 < n) {t : ℝ} (ht : 0 ≤ t) (S K r b σ : ℝ) :
    mcTarget .asian n true S K t r b σ - mcTarget .asian n false S K t r b σ
      = exp (-r * t) * (S / n * ∑ j : Fin n, exp (b * (t * ((j : ℝ) + 1) / n)) - K) := by
  have hn' : (n : ℝ) ≠ 0 := by exact_mod_cast hn.ne'
  rw [← fair_eq .asian hn ht, ← fair_eq .asian hn ht, MC.fair, MC.fair, ← mul_sub,
    ← integral_sub (MC.integrable_pay _ _ _ _ _ _ _ _) (MC.integrable_pay _ _ _ _ _ _ _ _)]
  congr 1
  have h1 : ∀ z : Fin n → ℝ, MC.pay .asian true S K t b σ z - MC.pay .asian false S K t b σ z
      = pathAverage S t b σ z - K := by
    intro z
    simp only [MC.pay, MC.Kind.spec, if_true, Bool.false_eq_true, if_false]
    rcases le_total (pathAverage S t b σ z) K with h | h
    · rw [max_eq_right (by linarith), max_eq_left (by linarith)]; ring
    · rw [max_eq_left (by linarith), max_eq_right (by linarith)]; ring
  simp only [h1]
  have hi : Integrable (fun z : Fin n → ℝ => pathAverage S t b σ z) (stdNormal n) :=
    MC.integrable_spec .asian n S t b σ
  rw [integral_sub hi (integrable_const K)]
  simp only [integral_const, probReal_univ, one_smul, pathAverage, logPrice, exp_add]
  rw [integral_div, integral_finsetSum _ fun j _ => ((integrable_exp_sum _ _).const_mul _).const_mul _]
  congr 1
  rw [div_mul_eq_mul_div, Finset.mul_sum]
  congr 1
  refine Finset.sum_congr rfl fun j _ => ?_
  rw [integral_const_mul, integral_const_mul, integral_exp_sum, ← exp_add, MC.card_le_fin, mul_pow,
    sq_sqrt (by positivity)]
  congr 2
  push_cast
  field_simp
  ring

/-- **C62.** Consistency: let the paths be independent of each other and each consist of independent standard normal
innovations. With probability one, as the number of paths grows, the result of one loop, with or without
antithetic paths, converges to the exact value. -/
theorem C62_consistent {n : ℕ} {S K t r b σ : ℝ} {anti tr : Bool} {o : MC.Opt} (ht : 0 ≤ t)
    (ho : MC.new 1 n S K t r b σ anti false tr = .ok o) (k : MC.Kind) (call : Bool) (z : ℕ → Fin n → Ω → ℝ)
    (hpath : iIndepFun (fun j ω m => z j m ω) P)
    (hind : ∀ j, iIndepFun (z j) P) (hlaw : ∀ j m, HasLaw (z j m) (gaussianReal 0 1) P) :
    ∃ x : ℕ → Ω → ℝ,
      (∀ p, 0 < p → ∀ ω,
        MC.price k o call (fun _ => List.ofFn fun j : Fin p => List.ofFn fun m => z j m ω) = .ok [x p ω]) ∧
      ∀ᵐ ω ∂P, Tendsto (fun p => x p ω) atTop (𝓝 (mcTarget k n call S K t r b σ)) := by
  have hn : 0 < n := Nat.pos_of_ne_zero ((C43_new 1 n S K t r b σ anti false tr).1 ⟨o, ho⟩)
  have hrow : ∀ j, HasLaw (fun ω m => z j m ω) (stdNormal n) P := fun j => (hind j).hasLaw_pi (hlaw j)
  rw [← fair_eq k hn ht call S K r b σ]
  have hpm := MC.measurable_pay k call n S K t b σ
  have single : ∀ {l : List ℝ} {v : ℝ}, l.length = 1 → l[0]? = some v → l = [v] := by
    intro l v h1 h2
    match l, h1 with
    | [a], _ => simpa using h2
  -- the contribution of a path
  obtain ⟨f, hf, hfi, hfE, hval⟩ : ∃ f : (Fin n → ℝ) → ℝ, Measurable f ∧ Integrable f (stdNormal n) ∧
      ∫ w, f w ∂stdNormal n = MC.fair k n call S K t r b σ ∧
      ∀ p, 0 < p → ∀ ω, MC.price k o call (fun _ => List.ofFn fun j : Fin p => List.ofFn fun m => z j m ω)
        = .ok [(∑ i ∈ Finset.range p, f (fun m => z i m ω)) / p] := by
    cases anti with
    | false =>
      refine ⟨fun w => exp (-r * t) * MC.pay k call S K t b σ w, by fun_prop,
        (MC.integrable_pay k call n S K t b σ).const_mul _, integral_const_mul _ _, fun p hp ω => ?_⟩
      obtain ⟨it, h1, h2, h3⟩ := C43_price ho k call (fun _ => List.ofFn fun j : Fin p => List.ofFn fun m => z j m ω)
        (fun _ => p) (fun _ j m => z j m ω) (fun i _ => prep_ofFn false (fun (j : Fin p) m => z j m ω))
      rw [h1, single h2 (h3 0 one_pos), mcValue_pay]
      rw [Finset.sum_range]
    | true =>
      refine ⟨fun w => exp (-r * t) * ((MC.pay k call S K t b σ w + MC.pay k call S K t b σ (fun m => -w m)) / 2),
        by fun_prop, ?_, ?_, fun p hp ω => ?_⟩
      · exact (((MC.integrable_pay k call n S K t b σ).add
          ((measurePreserving_neg_stdNormal n).integrable_comp_of_integrable
            (MC.integrable_pay k call n S K t b σ))).div_const 2).const_mul _
      · have hi : Integrable (fun w : Fin n → ℝ => MC.pay k call S K t b σ (fun m => -w m)) (stdNormal n) :=
          (measurePreserving_neg_stdNormal n).integrable_comp_of_integrable
            (MC.integrable_pay k call n S K t b σ)
        rw [integral_const_mul, integral_div, integral_add (MC.integrable_pay k call n S K t b σ) hi, MC.fair]
        have : ∫ w, MC.pay k call S K t b σ (fun m => -w m) ∂stdNormal n
            = ∫ w, MC.pay k call S K t b σ w ∂stdNormal n :=
          (measurePreserving_neg_stdNormal n).hasLaw.integral_comp hpm.aestronglyMeasurable
        rw [this]
        ring
      · obtain ⟨it, h1, h2, h3⟩ := C43_price ho k call
          (fun _ => List.ofFn fun j : Fin p => List.ofFn fun m => z j m ω)
          (fun _ => p + p) (fun _ => Fin.append (fun j m => z j m ω) (fun j m => -z j m ω))
          (fun i _ => prep_ofFn true (fun (j : Fin p) m => z j m ω))
        rw [h1, single h2 (h3 0 one_pos), mcValue_pay, Fin.sum_univ_add]
        simp only [Fin.append_left, Fin.append_right]
        rw [Finset.sum_range, ← Finset.sum_add_distrib]
        congr 2
        have hp' : (p : ℝ) ≠ 0 := by exact_mod_cast hp.ne'
        rw [div_eq_div_iff (by push_cast; positivity) hp', Finset.sum_mul, Finset.sum_mul]
        refine Finset.sum_congr rfl fun j _ => ?_
        push_cast
        ring
  refine ⟨fun p ω => (∑ i ∈ Finset.range p, f (fun m => z i m ω)) / p, hval, ?_⟩
  have hl : ∀ j, HasLaw (f ∘ fun ω m => z j m ω) ((stdNormal n).map f) P := fun j =>
    HasLaw.comp ⟨hf.aemeasurable, rfl⟩ (hrow j)
  have h := strong_law_ae_real (μ := P) (fun j ω => f (fun m => z j m ω)) ?_ ?_ ?_
  · have hE : ∫ ω, f (fun m => z 0 m ω) ∂P = MC.fair k n call S K t r b σ := by
      rw [← hfE]
      exact (hrow 0).integral_comp hf.aestronglyMeasurable
    rw [hE] at h
    exact h
  · have h := hfi
    rw [← (hrow 0).map_eq] at h
    exact h.comp_aemeasurable (hrow 0).aemeasurable
  · intro i j hij
    exact (hpath.indepFun hij).comp hf hf
  · intro i
    exact ⟨(hl i).aemeasurable, (hl 0).aemeasurable, (hl i).map_eq.trans (hl 0).map_eq.symm⟩

/-- Non-vacuous: such innovations exist. -/
theorem C62_example (n : ℕ) : ∃ (P : Measure (ℕ → Fin n → ℝ)) (z : ℕ → Fin n → (ℕ → Fin n → ℝ) → ℝ),
    IsProbabilityMeasure P ∧ iIndepFun (fun j ω m => z j m ω) P ∧
    (∀ j, iIndepFun (z j) P) ∧ ∀ j m, HasLaw (z j m) (gaussianReal 0 1) P := by
  have hpres : ∀ j : ℕ, MeasurePreserving (fun ω : ℕ → Fin n → ℝ => ω j)
      (Measure.infinitePi fun _ : ℕ => stdNormal n) (stdNormal n) := fun j => measurePreserving_eval_infinitePi _ j
  have hlaw : ∀ j m, HasLaw (fun ω : ℕ → Fin n → ℝ => ω j m) (gaussianReal 0 1)
      (Measure.infinitePi fun _ : ℕ => stdNormal n) := fun j m =>
    ((measurePreserving_eval (fun _ : Fin n => gaussianReal 0 1) m).comp (hpres j)).hasLaw
  refine ⟨Measure.infinitePi fun _ : ℕ => stdNormal n, fun j m ω => ω j m, inferInstance, ?_, fun j => ?_, hlaw⟩
  · exact iIndepFun_infinitePi (X := fun _ => id) (fun _ => measurable_id)
  · rw [iIndepFun_iff_map_fun_eq_pi_map (fun m => (hlaw j m).aemeasurable)]
    simp only [(hlaw j _).map_eq]
    exact (hpres j).map_eq

end Verif.Props
