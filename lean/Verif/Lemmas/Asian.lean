import Verif.Lemmas.MCLaw
import Verif.Spec.Asian
import Verif.Lemmas.Margrabe
import Verif.Lemmas.RGWValue
import Mathlib.Analysis.Convex.Jensen
import Mathlib.Analysis.Convex.SpecificFunctions.Basic

/-! Average price options: convex order in the volatility, comparison with geometric averages and with vanilla options. -/
namespace Verif
open Verif.Spec Real MeasureTheory ProbabilityTheory
open scoped NNReal

/-! ### Linear forms of independent normals -/

theorem map_lin_stdNormal {n : ℕ} (a : Fin n → ℝ) (s : Finset (Fin n)) :
    (stdNormal n).map (fun z => ∑ i ∈ s, a i * z i) = gaussianReal 0 (∑ i ∈ s, (a i ^ 2).toNNReal) := by
  classical
  have hind : iIndepFun (fun (i : Fin n) (z : Fin n → ℝ) => a i * z i) (stdNormal n) :=
    iIndepFun_pi (X := fun i x => a i * x) (μ := fun _ : Fin n => gaussianReal 0 1)
      (fun _ => (measurable_const_mul _).aemeasurable)
  have hone : ∀ i : Fin n, (stdNormal n).map (fun z => a i * z i) = gaussianReal 0 (a i ^ 2).toNNReal := by
    intro i
    have h := (measurePreserving_eval (fun _ : Fin n => gaussianReal 0 1) i).map_eq
    have h2 : (fun z : Fin n → ℝ => a i * z i) = (fun x => a i * x) ∘ (fun z => z i) := rfl
    rw [h2, ← Measure.map_map (g := fun x => a i * x) (f := fun z : Fin n → ℝ => z i) (measurable_const_mul _) (measurable_pi_apply i)]
    have h3 : (stdNormal n).map (fun z => z i) = gaussianReal 0 1 := h
    rw [h3, gaussianReal_map_const_mul]
    congr 1
    · simp
    · rw [mul_one]; exact NNReal.eq (Real.coe_toNNReal _ (sq_nonneg _)).symm
  have key : (stdNormal n).map (∑ i ∈ s, fun z : Fin n → ℝ => a i * z i)
      = gaussianReal 0 (∑ i ∈ s, (a i ^ 2).toNNReal) := by
    induction s using Finset.induction_on with
    | empty =>
      simp only [Finset.sum_empty]
      rw [gaussianReal_zero_var]
      exact (Measure.map_const _ (0 : ℝ)).trans (by simp)
    | insert k s ha ih =>
      rw [Finset.sum_insert ha, Finset.sum_insert ha, add_comm, add_comm (a k ^ 2).toNNReal]
      have h := gaussianReal_add_gaussianReal_of_indepFun
        (hind.indepFun_finsetSum_of_notMem (fun i => (measurable_const_mul _).comp (measurable_pi_apply i)) ha) ih (hone k)
      rw [h, add_zero]
  rw [← key]
  congr 1
  funext z
  simp

/-- A linear form of independent standard normals is a multiple of one. -/
theorem integral_lin {n : ℕ} (a : Fin n → ℝ) {v : ℝ} (hv : v ^ 2 = ∑ i, a i ^ 2) {g : ℝ → ℝ} (hg : Continuous g) :
    ∫ z, g (∑ i, a i * z i) ∂stdNormal n = ∫ x, g (v * x) ∂gaussianReal 0 1 := by
  have h1 := integral_map (μ := stdNormal n) (φ := fun z : Fin n → ℝ => ∑ i, a i * z i) (f := g)
    (Finset.measurable_fun_sum _ fun i _ => (measurable_pi_apply i).const_mul _).aemeasurable hg.aestronglyMeasurable
  have h2 := integral_map (μ := gaussianReal 0 1) (φ := fun z : ℝ => v * z) (f := g) (by fun_prop) hg.aestronglyMeasurable
  rw [← h1, ← h2, map_lin_stdNormal, gaussianReal_map_const_mul]
  congr 2
  · simp
  · refine NNReal.eq ?_
    rw [mul_one, NNReal.coe_sum]
    exact (Finset.sum_congr rfl fun i _ => Real.coe_toNNReal _ (sq_nonneg _)).trans hv.symm

/-- Mixing two independent families of standard normals. -/
theorem measurePreserving_mix (n : ℕ) {a c : ℝ} (h : a ^ 2 + c ^ 2 = 1) :
    MeasurePreserving (fun p : (Fin n → ℝ) × (Fin n → ℝ) => fun i => a * p.1 i + c * p.2 i)
      ((stdNormal n).prod (stdNormal n)) (stdNormal n) := by
  have h1 := measurePreserving_arrowProdEquivProdArrow ℝ ℝ (Fin n) (fun _ => gaussianReal 0 1) (fun _ => gaussianReal 0 1)
  have h2 : MeasurePreserving (fun p : ℝ × ℝ => a * p.1 + c * p.2) ((gaussianReal 0 1).prod (gaussianReal 0 1))
      (gaussianReal 0 1) := by
    refine ⟨by fun_prop, ?_⟩
    have := gauss_linear a c 1 (by rw [h]; norm_num)
    rw [this]
    simp
  have h3 : MeasurePreserving (fun (p : Fin n → ℝ × ℝ) i => a * (p i).1 + c * (p i).2)
      (Measure.pi fun _ => (gaussianReal 0 1).prod (gaussianReal 0 1)) (stdNormal n) :=
    measurePreserving_pi _ _ (fun _ => h2)
  exact h3.comp (h1.symm _)

/-! ### Volatility -/

theorem logPrice_mix {n : ℕ} (t b : ℝ) {σ σ' a c : ℝ} (ha : σ' * a = σ) (h1 : a ^ 2 + c ^ 2 = 1)
    (z w : Fin n → ℝ) (j : Fin n) :
    logPrice t b σ' (fun i => a * z i + c * w i) j = logPrice t b σ z j + logPrice t 0 (σ' * c) w j := by
  have e : ∑ i ∈ Finset.univ.filter (· ≤ j), (a * z i + c * w i)
      = a * ∑ i ∈ Finset.univ.filter (· ≤ j), z i + c * ∑ i ∈ Finset.univ.filter (· ≤ j), w i := by
    rw [Finset.sum_add_distrib, Finset.mul_sum, Finset.mul_sum]
  have h2 : σ' ^ 2 = σ ^ 2 + (σ' * c) ^ 2 := by
    have : σ' ^ 2 * (a ^ 2 + c ^ 2) = σ' ^ 2 := by rw [h1, mul_one]
    rw [← ha]; linarith
  simp only [logPrice, e]
  have h3 : (b - σ' ^ 2 / 2) * (t * ((j : ℝ) + 1) / n) = (b - σ ^ 2 / 2) * (t * ((j : ℝ) + 1) / n)
      + (0 - (σ' * c) ^ 2 / 2) * (t * ((j : ℝ) + 1) / n) := by rw [h2]; ring
  rw [h3, ← ha]
  ring

theorem card_filter_le {n : ℕ} (j : Fin n) : (Finset.univ.filter (· ≤ j)).card = (j : ℕ) + 1 := by
  have : Finset.univ.filter (· ≤ j) = Finset.Iic j := by ext; simp
  rw [this, Fin.card_Iic]

/-- Mean of a price along the path. -/
theorem integral_price {n : ℕ} {t : ℝ} (ht : 0 ≤ t) (b σ : ℝ) (j : Fin n) :
    ∫ z, exp (logPrice t b σ z j) ∂stdNormal n = exp (b * (t * ((j : ℝ) + 1) / n)) := by
  simp only [logPrice, exp_add]
  rw [integral_const_mul, integral_exp_sum, ← exp_add, card_filter_le]
  congr 1
  rw [mul_pow, sq_sqrt (by positivity)]
  push_cast
  ring

theorem integrable_price {n : ℕ} (t b σ : ℝ) (j : Fin n) :
    Integrable (fun z : Fin n → ℝ => exp (logPrice t b σ z j)) (stdNormal n) := by
  simp only [logPrice, exp_add]
  exact (integrable_exp_sum _ _).const_mul _

theorem integrable_average (n : ℕ) (S t b σ : ℝ) :
    Integrable (fun z : Fin n → ℝ => pathAverage S t b σ z) (stdNormal n) := MC.integrable_spec .asian n S t b σ

/-- Given the part of the path that the smaller volatility explains, the mean of the average at the larger volatility is the
average at the smaller one. -/
theorem integral_average_mix {n : ℕ} {t : ℝ} (ht : 0 ≤ t) (S b : ℝ) {σ σ' a c : ℝ} (ha : σ' * a = σ)
    (h1 : a ^ 2 + c ^ 2 = 1) (z : Fin n → ℝ) :
    Integrable (fun w : Fin n → ℝ => pathAverage S t b σ' (fun i => a * z i + c * w i)) (stdNormal n) ∧
    ∫ w, pathAverage S t b σ' (fun i => a * z i + c * w i) ∂stdNormal n = pathAverage S t b σ z := by
  simp only [pathAverage, logPrice_mix t b ha h1, exp_add]
  have hi : ∀ j : Fin n, Integrable (fun w : Fin n → ℝ => S * (exp (logPrice t b σ z j) * exp (logPrice t 0 (σ' * c) w j)))
      (stdNormal n) := fun j => ((integrable_price _ _ _ _).const_mul _).const_mul _
  refine ⟨(integrable_finsetSum _ fun j _ => hi j).div_const _, ?_⟩
  rw [integral_div, integral_finsetSum _ fun j _ => hi j]
  congr 1
  refine Finset.sum_congr rfl fun j _ => ?_
  rw [integral_const_mul, integral_const_mul, integral_price ht]
  simp

theorem max_integral_le {α : Type*} [MeasurableSpace α] {μ : Measure α} [IsProbabilityMeasure μ] {g : α → ℝ} (hg : Integrable g μ)
    (K : ℝ) (call : Bool) :
    (if call then max (∫ w, g w ∂μ - K) 0 else max (K - ∫ w, g w ∂μ) 0)
      ≤ ∫ w, (if call then max (g w - K) 0 else max (K - g w) 0) ∂μ := by
  cases call
  · simp only [Bool.false_eq_true, if_false]
    refine max_le ?_ (integral_nonneg fun w => le_max_right _ _)
    have : K - ∫ w, g w ∂μ = ∫ w, (K - g w) ∂μ := by rw [integral_sub (integrable_const _) hg]; simp
    rw [this]
    exact integral_mono ((integrable_const _).sub hg) ((integrable_const K).sub hg).pos_part fun w => le_max_left _ _
  · simp only [if_true]
    refine max_le ?_ (integral_nonneg fun w => le_max_right _ _)
    have : ∫ w, g w ∂μ - K = ∫ w, (g w - K) ∂μ := by rw [integral_sub hg (integrable_const _)]; simp
    rw [this]
    exact integral_mono (hg.sub (integrable_const _)) (hg.sub (integrable_const K)).pos_part fun w => le_max_left _ _

/-- The value of an option on the arithmetic average increases with the volatility. -/
theorem asianValue_mono {n : ℕ} {t : ℝ} (ht : 0 ≤ t) (call : Bool) (S K r b : ℝ) {σ σ' : ℝ} (h0 : 0 ≤ σ) (h : σ ≤ σ') :
    asianValue n call S K t r b σ ≤ asianValue n call S K t r b σ' := by
  rcases h0.trans h |>.eq_or_lt with h' | h'
  · rw [show σ = σ' by linarith]
  have ha : σ' * (σ / σ') = σ := by field_simp
  have h1 : (σ / σ') ^ 2 + (√(1 - (σ / σ') ^ 2)) ^ 2 = 1 := by
    have : (σ / σ') ^ 2 ≤ 1 := by
      rw [div_pow, div_le_one (by positivity)]; exact pow_le_pow_left₀ h0 h 2
    rw [sq_sqrt (by linarith)]; ring
  set a := σ / σ'
  set c := √(1 - a ^ 2)
  have hmp := measurePreserving_mix n h1
  unfold asianValue
  refine mul_le_mul_of_nonneg_left ?_ (exp_pos _).le
  have hpay := MC.integrable_pay .asian call n S K t b σ'
  have e1 : ∫ z, (if call then max (pathAverage S t b σ' z - K) 0 else max (K - pathAverage S t b σ' z) 0) ∂stdNormal n
      = ∫ p : (Fin n → ℝ) × (Fin n → ℝ), (if call then max (pathAverage S t b σ' (fun i => a * p.1 i + c * p.2 i) - K) 0
        else max (K - pathAverage S t b σ' (fun i => a * p.1 i + c * p.2 i)) 0) ∂((stdNormal n).prod (stdNormal n)) := by
    conv_lhs => rw [← hmp.map_eq]
    rw [integral_map hmp.measurable.aemeasurable]
    rw [hmp.map_eq]; exact hpay.aestronglyMeasurable
  have hi2 : Integrable (fun p : (Fin n → ℝ) × (Fin n → ℝ) => if call then max (pathAverage S t b σ' (fun i => a * p.1 i + c * p.2 i) - K) 0
        else max (K - pathAverage S t b σ' (fun i => a * p.1 i + c * p.2 i)) 0) ((stdNormal n).prod (stdNormal n)) :=
    hmp.integrable_comp_of_integrable hpay
  rw [e1, integral_prod _ hi2]
  refine integral_mono (MC.integrable_pay .asian call n S K t b σ) hi2.integral_prod_left fun z => ?_
  have := integral_average_mix ht S b ha h1 z
  have h2 := max_integral_le this.1 K call
  rw [this.2] at h2
  exact h2

/-! ### Geometric average -/

theorem pathGeometric_eq {n : ℕ} (hn : 0 < n) {S : ℝ} (hS : 0 < S) (t b σ : ℝ) (z : Fin n → ℝ) :
    pathGeometric S t b σ z = S * exp ((∑ j, logPrice t b σ z j) / n) := by
  have hn' : (n : ℝ) ≠ 0 := by positivity
  rw [pathGeometric, Finset.prod_mul_distrib, Finset.prod_const, Finset.card_univ, Fintype.card_fin, ← exp_sum,
    mul_rpow (by positivity) (exp_pos _).le, ← rpow_natCast, ← rpow_mul hS.le, mul_one_div_cancel hn', rpow_one,
    ← exp_mul, mul_one_div]

theorem geometric_le {n : ℕ} (hn : 0 < n) {S : ℝ} (hS : 0 < S) (t b σ : ℝ) (z : Fin n → ℝ) :
    pathGeometric S t b σ z ≤ pathAverage S t b σ z := by
  have hn' : (n : ℝ) ≠ 0 := by positivity
  have h := convexOn_exp.map_sum_le (t := Finset.univ) (w := fun _ : Fin n => (1 / n : ℝ)) (p := fun j => logPrice t b σ z j)
    (fun _ _ => by positivity) (by simp [hn']) (fun _ _ => Set.mem_univ _)
  simp only [smul_eq_mul, ← Finset.mul_sum] at h
  rw [pathGeometric_eq hn hS, pathAverage, ← Finset.mul_sum, mul_div_assoc]
  refine mul_le_mul_of_nonneg_left ?_ hS.le
  calc exp ((∑ j, logPrice t b σ z j) / n) = exp (1 / n * ∑ j, logPrice t b σ z j) := by congr 1; ring
    _ ≤ _ := h
    _ = _ := by ring

/-- Weight of innovation `i` in the average of the log-prices. -/
theorem sum_logPrice {n : ℕ} (hn : 0 < n) (t b σ : ℝ) (z : Fin n → ℝ) :
    (∑ j, logPrice t b σ z j) / n
      = (b - σ ^ 2 / 2) * (t * ((n : ℝ) + 1) / (2 * n)) + ∑ i : Fin n, σ * √(t / n) * (((n : ℝ) - (i : ℕ)) / n) * z i := by
  have hn' : (n : ℝ) ≠ 0 := by positivity
  have e1 : ∑ j : Fin n, ((j : ℝ) + 1) = n * (n + 1) / 2 := by
    rw [Fin.sum_univ_eq_sum_range (fun i => ((i : ℝ) + 1)) n]
    clear hn hn' z
    induction n with
    | zero => simp
    | succ k ih => rw [Finset.sum_range_succ, ih]; push_cast; ring
  have e2 : ∑ j : Fin n, ∑ i ∈ Finset.univ.filter (· ≤ j), z i = ∑ i : Fin n, ((n : ℝ) - (i : ℕ)) * z i := by
    simp only [Finset.sum_filter]
    rw [Finset.sum_comm]
    refine Finset.sum_congr rfl fun i _ => ?_
    have : Finset.univ.filter (fun j => i ≤ j) = Finset.Ici i := by ext; simp
    rw [← Finset.sum_filter, Finset.sum_const, nsmul_eq_mul, this, Fin.card_Ici, Nat.cast_sub i.2.le]
  simp only [logPrice]
  rw [Finset.sum_add_distrib, ← Finset.mul_sum, ← Finset.mul_sum, e2, add_div]
  congr 1
  · have : ∑ j : Fin n, t * ((j : ℝ) + 1) / n = t * ((n : ℝ) + 1) / 2 := by
      rw [← Finset.sum_div, ← Finset.mul_sum, e1]; field_simp
    rw [this]; field_simp
  · rw [Finset.mul_sum, Finset.sum_div]
    refine Finset.sum_congr rfl fun i _ => ?_
    field_simp

theorem sum_weights {n : ℕ} (hn : 0 < n) : ∑ i : Fin n, (((n : ℝ) - (i : ℕ)) / n) ^ 2 = ((n : ℝ) + 1) * (2 * n + 1) / (6 * n) := by
  have hn' : (n : ℝ) ≠ 0 := by positivity
  have e : ∀ m : ℕ, ∀ x : ℝ, ∑ i ∈ Finset.range m, (x - (i : ℕ)) ^ 2
      = m * x ^ 2 - x * (m * (m - 1)) + (m - 1) * m * (2 * m - 1) / 6 := by
    intro m x
    induction m with
    | zero => simp
    | succ k ih => rw [Finset.sum_range_succ, ih]; push_cast; ring
  simp only [div_pow]
  rw [← Finset.sum_div, Fin.sum_univ_eq_sum_range (fun i => ((n : ℝ) - (i : ℕ)) ^ 2) n, e]
  field_simp
  ring

/-- Standard deviation of the logarithm of the geometric average. -/
noncomputable def geoVol (n : ℕ) (t σ : ℝ) : ℝ := σ * √(t * ((n : ℝ) + 1) * (2 * n + 1) / (6 * n ^ 2))

/-- Logarithm of the mean of the geometric average over the spot price. -/
noncomputable def geoCarry (n : ℕ) (t b σ : ℝ) : ℝ := (b - σ ^ 2 / 2) * (t * ((n : ℝ) + 1) / (2 * n)) + geoVol n t σ ^ 2 / 2

theorem integral_geometric {n : ℕ} (hn : 0 < n) {S t : ℝ} (hS : 0 < S) (ht : 0 ≤ t) (b σ : ℝ) {f : ℝ → ℝ} (hf : Continuous f) :
    ∫ z, f (pathGeometric S t b σ z) ∂stdNormal n
      = ∫ x, f (terminal S 1 (geoCarry n t b σ) (geoVol n t σ) x) ∂gaussianReal 0 1 := by
  have hn' : (0 : ℝ) < n := by positivity
  simp only [pathGeometric_eq hn hS, sum_logPrice hn]
  have hv : geoVol n t σ ^ 2 = ∑ i : Fin n, (σ * √(t / n) * (((n : ℝ) - (i : ℕ)) / n)) ^ 2 := by
    simp only [mul_pow _ _ 2, ← Finset.mul_sum]
    rw [sum_weights hn, geoVol, mul_pow, sq_sqrt (by positivity), sq_sqrt (by positivity)]
    field_simp
  rw [integral_lin _ hv (g := fun y => f (S * exp ((b - σ ^ 2 / 2) * (t * ((n : ℝ) + 1) / (2 * n)) + y))) (by fun_prop)]
  refine integral_congr_ae (Filter.Eventually.of_forall fun x => ?_)
  simp only [terminal, geoCarry, sqrt_one, mul_one]
  congr 3
  ring

theorem geometricValue_eq {n : ℕ} (hn : 0 < n) {S t : ℝ} (hS : 0 < S) (ht : 0 ≤ t) (call : Bool) (K r b σ : ℝ) :
    geometricValue n call S K t r b σ = exp (-r * t) * bsPrice call S K 1 0 (geoCarry n t b σ) (geoVol n t σ) := by
  rw [geometricValue, integral_geometric hn hS ht b σ (f := fun x => if call then max (x - K) 0 else max (K - x) 0)
    (by cases call <;> simp <;> fun_prop)]
  cases call <;> simp [bsPrice, bsCall, bsPut]

/-! ### Vanilla options -/

/-- Law of a single price along the path. -/
theorem integral_single {n : ℕ} (S : ℝ) {t : ℝ} (ht : 0 ≤ t) (b σ : ℝ) (j : Fin n) {f : ℝ → ℝ} (hf : Continuous f) :
    ∫ z, f (S * exp (logPrice t b σ z j)) ∂stdNormal n
      = ∫ x, f (terminal S (t * ((j : ℝ) + 1) / n) b σ x) ∂gaussianReal 0 1 := by
  have e : ∀ z : Fin n → ℝ, logPrice t b σ z j
      = (b - σ ^ 2 / 2) * (t * ((j : ℝ) + 1) / n) + ∑ i, (if i ≤ j then σ * √(t / n) else 0) * z i := by
    intro z
    rw [logPrice, Finset.mul_sum, Finset.sum_filter]
    congr 1
    refine Finset.sum_congr rfl fun i _ => ?_
    split_ifs <;> simp
  have hv : (σ * √(t * ((j : ℝ) + 1) / n)) ^ 2 = ∑ i : Fin n, (if i ≤ j then σ * √(t / n) else 0) ^ 2 := by
    have : ∀ i : Fin n, (if i ≤ j then σ * √(t / n) else 0) ^ 2 = if i ≤ j then σ ^ 2 * (t / n) else 0 := by
      intro i
      split_ifs
      · rw [mul_pow, sq_sqrt (by positivity)]
      · simp
    simp only [this]
    rw [← Finset.sum_filter, Finset.sum_const, card_filter_le, mul_pow, sq_sqrt (by positivity), nsmul_eq_mul]
    push_cast
    ring
  simp only [e]
  rw [integral_lin _ hv (g := fun y => f (S * exp ((b - σ ^ 2 / 2) * (t * ((j : ℝ) + 1) / n) + y))) (by fun_prop)]
  rfl

/-- Undiscounted calls grow with maturity if the carry is not negative, undiscounted puts if it is not positive. -/
theorem undiscounted_mono (call : Bool) {S s t b : ℝ} (hS : 0 ≤ S) (h0 : 0 ≤ s) (h1 : s ≤ t) (hb : if call then 0 ≤ b else b ≤ 0)
    (K σ : ℝ) :
    ∫ x, (if call then max (terminal S s b σ x - K) 0 else max (K - terminal S s b σ x) 0) ∂gaussianReal 0 1
      ≤ ∫ x, (if call then max (terminal S t b σ x - K) 0 else max (K - terminal S t b σ x) 0) ∂gaussianReal 0 1 := by
  set f : ℝ → ℝ := fun y => if call then max (y - K) 0 else max (K - y) 0 with hf
  have hfc : Continuous f := by cases call <;> simp only [hf, if_true, Bool.false_eq_true, if_false] <;> fun_prop
  have hb' : ∀ x, |f x| ≤ |x| + |K| := by
    intro x
    cases call
    · simp only [hf, Bool.false_eq_true, if_false, abs_of_nonneg (le_max_right (K - x) 0)]
      exact max_le (by linarith [le_abs_self K, neg_abs_le x]) (by positivity)
    · simp only [hf, if_true, abs_of_nonneg (le_max_right (x - K) 0)]
      exact max_le (by linarith [le_abs_self x, neg_abs_le K]) (by positivity)
  have hs : (σ * √t) ^ 2 = (σ * √s) ^ 2 + (σ * √(t - s)) ^ 2 := by
    rw [mul_pow, mul_pow, mul_pow, sq_sqrt (h0.trans h1), sq_sqrt h0, sq_sqrt (by linarith)]; ring
  have key := integral_gauss_linear hs (g := fun y => f (S * exp ((b - σ ^ 2 / 2) * t + y))) (by fun_prop)
  have e1 : ∀ z w, terminal (terminal S s b σ z) (t - s) b σ w
      = S * exp ((b - σ ^ 2 / 2) * t + (σ * √s * z + σ * √(t - s) * w)) := by
    intro z w
    simp only [terminal]
    rw [mul_assoc, ← exp_add]; congr 2; ring
  have hi : Integrable (fun p : ℝ × ℝ => f (terminal (terminal S s b σ p.1) (t - s) b σ p.2))
      ((gaussianReal 0 1).prod (gaussianReal 0 1)) := by
    simp only [e1]
    have h2 := (exp_lin_integrable (σ * √s) (σ * √(t - s))).const_mul (S * exp ((b - σ ^ 2 / 2) * t))
    refine (h2.norm.add (integrable_const |K|)).mono' ?_ (Filter.Eventually.of_forall fun p => ?_)
    · exact Continuous.aestronglyMeasurable (by fun_prop)
    · rw [norm_eq_abs]
      refine (hb' _).trans (le_of_eq ?_)
      simp only [Pi.add_apply, norm_eq_abs]
      rw [exp_add ((b - σ ^ 2 / 2) * t), ← mul_assoc S]
  have hterm : ∀ (m c : ℝ), Continuous fun x => terminal m c b σ x := fun m c => by unfold terminal; fun_prop
  have hi1 : Integrable (fun z => f (terminal S s b σ z)) (gaussianReal 0 1) := by
    refine ((integrable_terminal S s b σ).norm.add (integrable_const |K|)).mono' ?_ (Filter.Eventually.of_forall fun z => hb' _)
    exact (hfc.comp (hterm S s)).aestronglyMeasurable
  change ∫ x, f (terminal S s b σ x) ∂gaussianReal 0 1 ≤ ∫ x, f (terminal S t b σ x) ∂gaussianReal 0 1
  calc ∫ x, f (terminal S s b σ x) ∂gaussianReal 0 1
      ≤ ∫ z, ∫ w, f (terminal (terminal S s b σ z) (t - s) b σ w) ∂gaussianReal 0 1 ∂gaussianReal 0 1 := by
        refine integral_mono hi1 hi.integral_prod_left fun z => ?_
        have h2 := max_integral_le (integrable_terminal (terminal S s b σ z) (t - s) b σ) K call
        rw [integral_terminal (by linarith)] at h2
        refine le_trans ?_ h2
        have hy : 0 ≤ terminal S s b σ z := mul_nonneg hS (exp_pos _).le
        cases call
        · simp only [hf, Bool.false_eq_true, if_false] at hb ⊢
          have : exp (b * (t - s)) ≤ 1 := exp_le_one_iff.2 (mul_nonpos_of_nonpos_of_nonneg hb (by linarith))
          exact max_le_max (by nlinarith) le_rfl
        · simp only [hf, if_true] at hb ⊢
          have : 1 ≤ exp (b * (t - s)) := one_le_exp (mul_nonneg hb (by linarith))
          exact max_le_max (by nlinarith) le_rfl
    _ = ∫ p : ℝ × ℝ, f (terminal (terminal S s b σ p.1) (t - s) b σ p.2) ∂((gaussianReal 0 1).prod (gaussianReal 0 1)) :=
        (integral_prod _ hi).symm
    _ = ∫ x, f (terminal S t b σ x) ∂gaussianReal 0 1 := by
        simp only [e1]
        rw [key]
        rfl

/-- The option on the average is worth no more than the vanilla option, for calls with non-negative and puts with non-positive
carry. -/
theorem asianValue_le {n : ℕ} (hn : 0 < n) (call : Bool) {S t b : ℝ} (hS : 0 ≤ S) (ht : 0 ≤ t)
    (hb : if call then 0 ≤ b else b ≤ 0) (K r σ : ℝ) :
    asianValue n call S K t r b σ ≤ bsPrice call S K t r b σ := by
  have hn' : (0 : ℝ) < n := by positivity
  set f : ℝ → ℝ := fun y => if call then max (y - K) 0 else max (K - y) 0 with hf
  have hfc : Continuous f := by cases call <;> simp only [hf, if_true, Bool.false_eq_true, if_false] <;> fun_prop
  have hconv : ConvexOn ℝ Set.univ f := by
    cases call
    · simp only [hf, Bool.false_eq_true, if_false]
      exact ((convexOn_const K convex_univ).sub (concaveOn_id convex_univ)).sup (convexOn_const 0 convex_univ)
    · simp only [hf, if_true]
      exact ((convexOn_id convex_univ).sub (concaveOn_const K convex_univ)).sup (convexOn_const 0 convex_univ)
  have hi : ∀ j : Fin n, Integrable (fun z : Fin n → ℝ => f (S * exp (logPrice t b σ z j))) (stdNormal n) := by
    intro j
    have h := (integrable_price t b σ j).const_mul S
    cases call <;> simp only [hf, if_true, Bool.false_eq_true, if_false]
    · exact ((integrable_const K).sub h).pos_part
    · exact (h.sub (integrable_const K)).pos_part
  have h1 : ∫ z, f (pathAverage S t b σ z) ∂stdNormal n ≤ ∫ z, (∑ j : Fin n, f (S * exp (logPrice t b σ z j))) / n ∂stdNormal n := by
    refine integral_mono (MC.integrable_pay .asian call n S K t b σ) ((integrable_finsetSum _ fun j _ => hi j).div_const _) fun z => ?_
    have h := hconv.map_sum_le (t := Finset.univ) (w := fun _ : Fin n => (1 / n : ℝ)) (p := fun j => S * exp (logPrice t b σ z j))
      (fun _ _ => by positivity) (by simp [hn'.ne']) (fun _ _ => Set.mem_univ _)
    simp only [smul_eq_mul, ← Finset.mul_sum] at h
    have e : pathAverage S t b σ z = 1 / n * (S * ∑ j : Fin n, exp (logPrice t b σ z j)) := by
      rw [pathAverage, Finset.mul_sum]; ring
    change f (pathAverage S t b σ z) ≤ _
    rw [e]
    refine h.trans (le_of_eq ?_)
    ring
  rw [integral_div, integral_finsetSum _ fun j _ => hi j] at h1
  have h2 : ∀ j : Fin n, ∫ z, f (S * exp (logPrice t b σ z j)) ∂stdNormal n ≤ ∫ x, f (terminal S t b σ x) ∂gaussianReal 0 1 := by
    intro j
    rw [integral_single S ht b σ j hfc]
    refine undiscounted_mono call hS (by positivity) ?_ hb K σ
    rw [div_le_iff₀ hn']
    exact mul_le_mul_of_nonneg_left (by exact_mod_cast j.2) ht
  have h3 : (∑ j : Fin n, ∫ z, f (S * exp (logPrice t b σ z j)) ∂stdNormal n) / n ≤ ∫ x, f (terminal S t b σ x) ∂gaussianReal 0 1 := by
    rw [div_le_iff₀ hn']
    refine (Finset.sum_le_sum fun j _ => h2 j).trans (le_of_eq ?_)
    rw [Finset.sum_const, Finset.card_univ, Fintype.card_fin, nsmul_eq_mul, mul_comm]
  have h4 := mul_le_mul_of_nonneg_left (h1.trans h3) (exp_pos (-r * t)).le
  cases call
  · simpa only [asianValue, bsPrice, bsPut, hf, Bool.false_eq_true, if_false] using h4
  · simpa only [asianValue, bsPrice, bsCall, hf, if_true] using h4

end Verif
