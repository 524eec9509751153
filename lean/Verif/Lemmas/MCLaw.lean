import Verif.Lemmas.MC
import Verif.Lemmas.Phi
import Mathlib.Probability.HasLaw
import Mathlib.Probability.Independence.Basic
import Mathlib.Probability.Distributions.Gaussian.Real

/-! Distribution of simulated prices when the innovations are independent standard normal. -/
namespace Verif
open Verif.Spec Real MeasureTheory ProbabilityTheory
open scoped NNReal

instance (n : ℕ) : IsProbabilityMeasure (stdNormal n) := by unfold stdNormal; infer_instance

/-- Sums of coordinates are normal. -/
theorem map_sum_stdNormal {n : ℕ} (s : Finset (Fin n)) :
    (stdNormal n).map (fun z => ∑ i ∈ s, z i) = gaussianReal 0 (s.card : ℝ≥0) := by
  classical
  have hind : iIndepFun (fun (i : Fin n) (z : Fin n → ℝ) => z i) (stdNormal n) :=
    iIndepFun_pi (X := fun _ => id) (μ := fun _ : Fin n => gaussianReal 0 1) (fun _ => aemeasurable_id)
  have hone : ∀ i : Fin n, (stdNormal n).map (fun z => z i) = gaussianReal 0 1 := fun i =>
    (measurePreserving_eval (fun _ : Fin n => gaussianReal 0 1) i).map_eq
  have key : (stdNormal n).map (∑ i ∈ s, fun z : Fin n → ℝ => z i) = gaussianReal 0 (s.card : ℝ≥0) := by
    induction s using Finset.induction_on with
    | empty =>
      simp only [Finset.sum_empty, Finset.card_empty, Nat.cast_zero]
      rw [gaussianReal_zero_var]
      exact (Measure.map_const _ (0 : ℝ)).trans (by simp)
    | insert a s ha ih =>
      rw [Finset.sum_insert ha, Finset.card_insert_of_notMem ha, add_comm]
      have h := gaussianReal_add_gaussianReal_of_indepFun
        (hind.indepFun_finsetSum_of_notMem (fun i => measurable_pi_apply i) ha) ih (hone a)
      rw [h]
      congr 1 <;> push_cast <;> ring
  rw [← key]
  congr 1
  funext z
  simp

theorem integrable_exp_sum {n : ℕ} (s : Finset (Fin n)) (c : ℝ) :
    Integrable (fun z => exp (c * ∑ i ∈ s, z i)) (stdNormal n) := by
  have h := integrable_exp_mul_gaussianReal (μ := 0) (v := (s.card : ℝ≥0)) c
  rw [← map_sum_stdNormal s] at h
  exact h.comp_measurable (by fun_prop)

theorem integral_exp_sum {n : ℕ} (s : Finset (Fin n)) (c : ℝ) :
    ∫ z, exp (c * ∑ i ∈ s, z i) ∂stdNormal n = exp (s.card * c ^ 2 / 2) := by
  have h := mgf_gaussianReal (map_sum_stdNormal s) c
  rw [mgf] at h
  rw [h]
  simp

/-- The vanilla path price has the law of the terminal price of the Black–Scholes model. -/
theorem pathEnd_eq {n : ℕ} (hn : 0 < n) {t : ℝ} (ht : 0 ≤ t) (S b σ : ℝ) (z : Fin n → ℝ) :
    pathEnd S t b σ z = terminal S t b σ ((∑ i, z i) / √n) := by
  rw [pathEnd, terminal, sqrt_div ht]
  congr 3
  have : √(n : ℝ) ≠ 0 := by positivity
  field_simp

theorem map_std_sum {n : ℕ} (hn : 0 < n) :
    (stdNormal n).map (fun z => (∑ i, z i) / √n) = gaussianReal 0 1 := by
  have h : (fun z : Fin n → ℝ => (∑ i, z i) / √n) = (fun x => x / √n) ∘ (fun z : Fin n → ℝ => ∑ i, z i) := rfl
  rw [h, ← Measure.map_map (by fun_prop) (by fun_prop), map_sum_stdNormal, gaussianReal_map_div_const]
  congr 1
  · simp
  · ext
    simp only [Finset.card_univ, Fintype.card_fin, NNReal.coe_div, NNReal.coe_natCast, NNReal.coe_one]
    have : (n : ℝ) ≠ 0 := by positivity
    change (n : ℝ) / (√(n : ℝ)) ^ 2 = 1
    rw [sq_sqrt (Nat.cast_nonneg n), div_self this]

/-- Symmetry. -/
theorem measurePreserving_neg_stdNormal (n : ℕ) :
    MeasurePreserving (fun z : Fin n → ℝ => fun i => -z i) (stdNormal n) (stdNormal n) :=
  measurePreserving_pi _ _ (fun _ => ⟨measurable_neg, by simpa using gaussianReal_map_neg (μ := 0) (v := 1)⟩)

namespace MC

theorem measurable_spec (k : Kind) (n : ℕ) (S t b σ : ℝ) : Measurable (fun z : Fin n → ℝ => k.spec S t b σ z) := by
  cases k with
  | vanilla => simp only [Kind.spec, pathEnd]; fun_prop
  | asian => simp only [Kind.spec, pathAverage, logPrice]; fun_prop

theorem integrable_spec (k : Kind) (n : ℕ) (S t b σ : ℝ) :
    Integrable (fun z : Fin n → ℝ => k.spec S t b σ z) (stdNormal n) := by
  cases k with
  | vanilla =>
    simp only [Kind.spec, pathEnd, exp_add]
    exact ((integrable_exp_sum _ _).const_mul _).const_mul _
  | asian =>
    simp only [Kind.spec, pathAverage, logPrice, exp_add]
    exact (integrable_finsetSum _ fun j _ => ((integrable_exp_sum _ _).const_mul _).const_mul _).div_const _

/-- The payoff of a path. -/
noncomputable def pay (k : Kind) (call : Bool) {n : ℕ} (S K t b σ : ℝ) (z : Fin n → ℝ) : ℝ :=
  if call then max (k.spec S t b σ z - K) 0 else max (K - k.spec S t b σ z) 0

theorem measurable_pay (k : Kind) (call : Bool) (n : ℕ) (S K t b σ : ℝ) :
    Measurable (fun z : Fin n → ℝ => pay k call S K t b σ z) := by
  have := measurable_spec k n S t b σ
  cases call <;> simp only [pay, if_true, Bool.false_eq_true, if_false] <;> fun_prop

theorem integrable_pay (k : Kind) (call : Bool) (n : ℕ) (S K t b σ : ℝ) :
    Integrable (fun z : Fin n → ℝ => pay k call S K t b σ z) (stdNormal n) := by
  have h := integrable_spec k n S t b σ
  cases call <;> simp only [pay, if_true, Bool.false_eq_true, if_false]
  · exact ((integrable_const K).sub h).pos_part
  · exact (h.sub (integrable_const K)).pos_part

/-- The expected discounted payoff. -/
noncomputable def fair (k : Kind) (n : ℕ) (call : Bool) (S K t r b σ : ℝ) : ℝ :=
  exp (-r * t) * ∫ z, pay k call S K t b σ z ∂stdNormal n

theorem fair_vanilla {n : ℕ} (hn : 0 < n) {t : ℝ} (ht : 0 ≤ t) (call : Bool) (S K r b σ : ℝ) :
    fair .vanilla n call S K t r b σ = bsPrice call S K t r b σ := by
  have hm : AEMeasurable (fun z : Fin n → ℝ => (∑ i, z i) / √n) (stdNormal n) := by fun_prop
  have hterm : Measurable (fun z => terminal S t b σ z) := by unfold terminal; fun_prop
  unfold fair bsPrice bsCall bsPut
  cases call
  · simp only [pay, Kind.spec, pathEnd_eq hn ht, Bool.false_eq_true, if_false]
    rw [← map_std_sum hn, integral_map hm]
    exact (by fun_prop : Measurable _).aestronglyMeasurable
  · simp only [pay, Kind.spec, pathEnd_eq hn ht, if_true]
    rw [← map_std_sum hn, integral_map hm]
    exact (by fun_prop : Measurable _).aestronglyMeasurable

theorem fair_asian (n : ℕ) (call : Bool) (S K t r b σ : ℝ) :
    fair .asian n call S K t r b σ = asianValue n call S K t r b σ := rfl

end MC
end Verif
