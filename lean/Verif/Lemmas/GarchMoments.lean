import Verif.Lemmas.Garch
import Verif.Lemmas.Phi
import Verif.Lemmas.HN
import Mathlib.MeasureTheory.Integral.IntegralEqImproper
import Mathlib.MeasureTheory.Integral.Prod
import Mathlib.MeasureTheory.Function.L2Space

/-!
Moments of the Heston–Nandi series driven by independent standard normal innovations.
-/
namespace Verif.HN
open Verif Verif.Spec Real MeasureTheory ProbabilityTheory

/-! ### Moments of the standard normal law -/

theorem integrable_pow_gauss (k : ℕ) : Integrable (fun x : ℝ => x ^ k) (gaussianReal 0 1) := by
  have h := (memLp_id_gaussianReal (μ := 0) (v := 1) k).integrable_norm_pow'
  refine h.mono' (by fun_prop) (.of_forall fun x => ?_)
  simp

theorem hasDerivAt_φ (x : ℝ) : HasDerivAt φ (-(x * φ x)) x := by
  have h : HasDerivAt (fun x : ℝ => -x ^ 2 / 2) (-x) x :=
    (((hasDerivAt_id x).pow 2).neg.div_const 2).congr_deriv (by simp; ring)
  have h2 := h.exp.div_const (√(2 * π))
  refine (h2.congr_deriv ?_).congr_of_eventuallyEq (.of_forall fun y => ?_)
  · simp only [φ]; ring
  · simp only [φ]

theorem integrable_pow_φ (k : ℕ) : Integrable (fun x : ℝ => x ^ k * φ x) := by
  have h := integrable_pow_gauss k
  rw [gaussianReal_of_var_ne_zero _ (by norm_num), integrable_withDensity_iff (by fun_prop)
    (.of_forall fun x => by simp [gaussianPDF])] at h
  refine h.congr (.of_forall fun x => ?_)
  simp only [gaussianPDF, gaussianPDFReal_std, ENNReal.toReal_ofReal (φ_pos x).le]

/-- Integration by parts. -/
theorem moment_succ (k : ℕ) :
    ∫ x : ℝ, x ^ (k + 2) ∂gaussianReal 0 1 = (k + 1) * ∫ x : ℝ, x ^ k ∂gaussianReal 0 1 := by
  have h := integral_mul_deriv_eq_deriv_mul_of_integrable (u := fun x : ℝ => x ^ (k + 1))
    (u' := fun x => (k + 1) * x ^ k) (v := φ) (v' := fun x => -(x * φ x))
    (fun x _ => by simpa using hasDerivAt_pow (k + 1) x) (fun x _ => hasDerivAt_φ x)
    (((integrable_pow_φ (k + 2)).neg).congr (.of_forall fun x => by simp [pow_succ]; ring))
    (((integrable_pow_φ k).const_mul (k + 1)).congr (.of_forall fun x => by simp; ring))
    (integrable_pow_φ (k + 1))
  rw [integral_gauss, integral_gauss, ← integral_const_mul]
  have e1 : ∀ x : ℝ, x ^ (k + 2) * φ x = -(x ^ (k + 1) * -(x * φ x)) := fun x => by ring
  have e2 : ∀ x : ℝ, (k + 1 : ℝ) * (x ^ k * φ x) = (k + 1) * x ^ k * φ x := fun x => by ring
  simp only [e1, e2]
  rw [integral_neg, h, neg_neg]

theorem moment_zero : ∫ x : ℝ, x ^ 0 ∂gaussianReal 0 1 = 1 := by simp

theorem moment_one : ∫ x : ℝ, x ^ 1 ∂gaussianReal 0 1 = 0 := by
  simp only [pow_one]; exact integral_id_gaussianReal

theorem moment_two : ∫ x : ℝ, x ^ 2 ∂gaussianReal 0 1 = 1 := by
  have := moment_succ 0
  rw [moment_zero] at this
  simpa using this

theorem moment_three : ∫ x : ℝ, x ^ 3 ∂gaussianReal 0 1 = 0 := by
  have := moment_succ 1
  rw [moment_one] at this
  simpa using this

theorem moment_four : ∫ x : ℝ, x ^ 4 ∂gaussianReal 0 1 = 3 := by
  have := moment_succ 2
  rw [moment_two] at this
  rw [this]; norm_num

/-! ### Independence of one innovation from a function of the others -/

section split
variable {n : ℕ} {F : (Fin n → ℝ) → ℝ} {q : ℝ → ℝ} {k : Fin n}

theorem split_aux (hF : ∀ z x, F (Function.update z k x) = F z) :
    ∃ (N : ℕ) (e : (Fin n → ℝ) → ℝ × (Fin N → ℝ)) (G : (Fin N → ℝ) → ℝ),
      MeasurePreserving e (stdNormal n) ((gaussianReal 0 1).prod (stdNormal N)) ∧ MeasurableEmbedding e ∧
      (∀ z, F z = G (e z).2) ∧ ∀ z, z k = (e z).1 := by
  obtain ⟨N, rfl⟩ : ∃ N, n = N + 1 := ⟨n - 1, by have := k.2; omega⟩
  refine ⟨N, MeasurableEquiv.piFinSuccAbove (fun _ => ℝ) k, fun y => F (Fin.insertNth (α := fun _ => ℝ) k 0 y),
    measurePreserving_piFinSuccAbove (fun _ => gaussianReal 0 1) k, MeasurableEquiv.measurableEmbedding _, ?_, ?_⟩
  · intro z
    rw [← hF z 0]
    congr 1
    funext j
    refine Fin.succAboveCases k ?_ (fun j => ?_) j
    · simp
    · simp only [ne_eq, Fin.succAbove_ne, not_false_eq_true, Function.update_of_ne, Fin.insertNth_apply_succAbove]
      rfl
  · intro z
    rfl

theorem integrable_snd {N : ℕ} {G : (Fin N → ℝ) → ℝ}
    (h : Integrable (fun y : ℝ × (Fin N → ℝ) => G y.2) ((gaussianReal 0 1).prod (stdNormal N))) :
    Integrable G (stdNormal N) := by
  have : IsProbabilityMeasure (stdNormal N) := by unfold stdNormal; infer_instance
  have := h.prod_right_ae.exists
  obtain ⟨x, hx⟩ := this
  exact hx

theorem integrable_split (hF : ∀ z x, F (Function.update z k x) = F z) (hi : Integrable F (stdNormal n))
    (hq : Integrable q (gaussianReal 0 1)) : Integrable (fun z => F z * q (z k)) (stdNormal n) := by
  have (N : ℕ) : IsProbabilityMeasure (stdNormal N) := by unfold stdNormal; infer_instance
  obtain ⟨N, e, G, he, hem, hG, hk⟩ := split_aux hF
  have hG' : Integrable G (stdNormal N) := by
    refine integrable_snd ?_
    rw [← he.integrable_comp_emb hem]
    exact hi.congr (.of_forall fun z => hG z)
  have h := hq.mul_prod hG'
  rw [← he.integrable_comp_emb hem] at h
  refine h.congr (.of_forall fun z => ?_)
  simp only [Function.comp_apply, hG z, hk z, mul_comm]

theorem integral_split (hF : ∀ z x, F (Function.update z k x) = F z) (q : ℝ → ℝ) :
    ∫ z, F z * q (z k) ∂stdNormal n = (∫ z, F z ∂stdNormal n) * ∫ x, q x ∂gaussianReal 0 1 := by
  have (N : ℕ) : IsProbabilityMeasure (stdNormal N) := by unfold stdNormal; infer_instance
  obtain ⟨N, e, G, he, hem, hG, hk⟩ := split_aux hF
  have h1 : ∫ z, F z ∂stdNormal n = ∫ y, G y ∂stdNormal N := by
    have h := he.integral_comp hem (fun y => 1 * G y.2)
    rw [integral_prod_mul (fun _ : ℝ => (1 : ℝ)) G] at h
    simp only [one_mul, integral_const, probReal_univ, smul_eq_mul] at h
    rw [← h]
    simp only [hG]
  have h2 := he.integral_comp hem (fun y => q y.1 * G y.2)
  rw [integral_prod_mul q G] at h2
  rw [h1, mul_comm, ← h2]
  simp only [hG, hk, mul_comm]

end split

/-! ### The series -/

section series
variable {ω α β γ s : ℝ} {n : ℕ}

instance (N : ℕ) : IsProbabilityMeasure (stdNormal N) := by unfold stdNormal; infer_instance

/-- The innovations as a sequence. -/
def pad (z : Fin n → ℝ) (i : ℕ) : ℝ := if h : i < n then z ⟨i, h⟩ else 0

theorem pad_lt (z : Fin n → ℝ) (k : Fin n) : pad z k = z k := by simp [pad]

theorem pad_update (z : Fin n → ℝ) (k : Fin n) (x : ℝ) {i : ℕ} (hi : i ≠ k) :
    pad (Function.update z k x) i = pad z i := by
  unfold pad
  split
  · rw [Function.update_of_ne]
    intro h
    exact hi (by rw [← h])
  · rfl

theorem measurable_pad (i : ℕ) : Measurable fun z : Fin n → ℝ => pad z i := by
  unfold pad
  split <;> fun_prop

theorem hnVar_update (z : Fin n → ℝ) (k : Fin n) (x : ℝ) {j : ℕ} (hj : j ≤ k) :
    hnVar ω α β γ s (pad (Function.update z k x)) j = hnVar ω α β γ s (pad z) j :=
  hnVar_congr j fun i hi => pad_update z k x (by omega)

theorem measurable_hnVar (j : ℕ) : Measurable fun z : Fin n → ℝ => hnVar ω α β γ s (pad z) j := by
  induction j with
  | zero => simp only [hnVar]; fun_prop
  | succ j ih =>
    simp only [hnVar, hnNext]
    have := measurable_pad (n := n) j
    fun_prop

theorem hnVar_nonneg (hω : 0 ≤ ω) (hα : 0 ≤ α) (hβ : 0 ≤ β) (hs : 0 ≤ s) (z : ℕ → ℝ) (j : ℕ) :
    0 ≤ hnVar ω α β γ s z j := by
  induction j with
  | zero => exact hs
  | succ j ih => exact hω.trans (le_hnNext hα hβ ih)

/-- Innovation of the variance. -/
noncomputable def shock (α γ h z : ℝ) : ℝ := α * (z ^ 2 - 1) + -(2 * α * γ) * (√h * z)

theorem dev_succ {ρ : ℝ} (hρ : ρ = β + α * γ ^ 2) (hs : ω + α = s * (1 - ρ)) {h : ℝ} (hh : 0 ≤ h) (z : ℝ) :
    hnNext ω α β γ h z - s = ρ * (h - s) + shock α γ h z := by
  have h2 := sq_sqrt hh
  rw [hnNext, shock]
  linear_combination (α * γ ^ 2) * h2 - h * hρ + hs

variable {Q : (Fin n → ℝ) → ℝ} {k : Fin n}

/-- Mean of a function of the other innovations times a moment of innovation `k`. -/
theorem integral_mul_pow (hQ : ∀ z x, Q (Function.update z k x) = Q z) (j : ℕ) :
    ∫ z, Q z * (z k) ^ j ∂stdNormal n = (∫ z, Q z ∂stdNormal n) * ∫ x : ℝ, x ^ j ∂gaussianReal 0 1 :=
  integral_split hQ (fun x => x ^ j)

theorem integrable_mul_pow (hQ : ∀ z x, Q (Function.update z k x) = Q z) (hi : Integrable Q (stdNormal n)) (j : ℕ) :
    Integrable (fun z => Q z * (z k) ^ j) (stdNormal n) :=
  integrable_split hQ hi (integrable_pow_gauss j)

theorem memLp_mul_coord (hQ : ∀ z x, Q (Function.update z k x) = Q z) (hm : Measurable Q)
    (hi : Integrable (fun z => Q z ^ 2) (stdNormal n)) (j : ℕ) : MemLp (fun z => Q z * (z k) ^ j) 2 (stdNormal n) := by
  rw [memLp_two_iff_integrable_sq (by fun_prop)]
  refine (integrable_mul_pow (Q := fun z => Q z ^ 2) (k := k) (fun z x => by rw [hQ]) hi (2 * j)).congr
    (.of_forall fun z => ?_)
  simp only
  ring

theorem integral_quad3 {X : Type*} [MeasurableSpace X] {μ : Measure X} {A B C : X → ℝ} (hA : MemLp A 2 μ)
    (hB : MemLp B 2 μ) (hC : MemLp C 2 μ) (a b c : ℝ) :
    ∫ z, (a * A z + b * B z + c * C z) ^ 2 ∂μ = a ^ 2 * ∫ z, A z * A z ∂μ + b ^ 2 * ∫ z, B z * B z ∂μ
      + c ^ 2 * ∫ z, C z * C z ∂μ + 2 * a * b * ∫ z, A z * B z ∂μ + 2 * a * c * ∫ z, A z * C z ∂μ
      + 2 * b * c * ∫ z, B z * C z ∂μ := by
  have e : ∀ z, (a * A z + b * B z + c * C z) ^ 2 = a ^ 2 * (A z * A z) + b ^ 2 * (B z * B z)
      + c ^ 2 * (C z * C z) + 2 * a * b * (A z * B z) + 2 * a * c * (A z * C z) + 2 * b * c * (B z * C z) :=
    fun z => by ring
  have i1 := (hA.integrable_mul hA).const_mul (a ^ 2)
  have i2 := (hB.integrable_mul hB).const_mul (b ^ 2)
  have i3 := (hC.integrable_mul hC).const_mul (c ^ 2)
  have i4 := (hA.integrable_mul hB).const_mul (2 * a * b)
  have i5 := (hA.integrable_mul hC).const_mul (2 * a * c)
  have i6 := (hB.integrable_mul hC).const_mul (2 * b * c)
  simp only [Pi.mul_apply] at i1 i2 i3 i4 i5 i6
  simp only [e]
  rw [integral_add ((((i1.fun_add i2).fun_add i3).fun_add i4).fun_add i5) i6,
    integral_add (((i1.fun_add i2).fun_add i3).fun_add i4) i5, integral_add ((i1.fun_add i2).fun_add i3) i4,
    integral_add (i1.fun_add i2) i3, integral_add i1 i2]
  simp only [integral_const_mul]

theorem integral_lin3 {X : Type*} [MeasurableSpace X] {μ : Measure X} {A B C : X → ℝ} (hA : Integrable A μ)
    (hB : Integrable B μ) (hC : Integrable C μ) (a b c : ℝ) :
    ∫ z, (a * A z + b * B z + c * C z) ∂μ = a * ∫ z, A z ∂μ + b * ∫ z, B z ∂μ + c * ∫ z, C z ∂μ := by
  have i1 := hA.const_mul a
  have i2 := hB.const_mul b
  have i3 := hC.const_mul c
  rw [integral_add (i1.fun_add i2) i3, integral_add i1 i2]
  simp only [integral_const_mul]

/-- The two sources of new noise on day `k`: `z² - 1` and `√h z`. -/
theorem noise {H : (Fin n → ℝ) → ℝ} (hH : ∀ z x, H (Function.update z k x) = H z) (hm : Measurable H)
    (h0 : ∀ z, 0 ≤ H z) (hi : Integrable H (stdNormal n)) {Q : (Fin n → ℝ) → ℝ}
    (hQ : ∀ z x, Q (Function.update z k x) = Q z) :
    MemLp (fun z => (z k) ^ 2 - 1) 2 (stdNormal n) ∧ MemLp (fun z => √(H z) * z k) 2 (stdNormal n) ∧
    ∫ z, ((z k) ^ 2 - 1) ∂stdNormal n = 0 ∧ ∫ z, √(H z) * z k ∂stdNormal n = 0 ∧
    ∫ z, ((z k) ^ 2 - 1) * ((z k) ^ 2 - 1) ∂stdNormal n = 2 ∧
    ∫ z, √(H z) * z k * (√(H z) * z k) ∂stdNormal n = ∫ z, H z ∂stdNormal n ∧
    ∫ z, ((z k) ^ 2 - 1) * (√(H z) * z k) ∂stdNormal n = 0 ∧
    ∫ z, Q z * ((z k) ^ 2 - 1) ∂stdNormal n = 0 ∧ ∫ z, Q z * (√(H z) * z k) ∂stdNormal n = 0 := by
  have g2 : Integrable (fun x : ℝ => x ^ 2) (gaussianReal 0 1) := integrable_pow_gauss 2
  have g3 : Integrable (fun x : ℝ => x ^ 3) (gaussianReal 0 1) := integrable_pow_gauss 3
  have g4 : Integrable (fun x : ℝ => x ^ 4) (gaussianReal 0 1) := integrable_pow_gauss 4
  have g1 : Integrable (fun x : ℝ => x) (gaussianReal 0 1) := by
    have := integrable_pow_gauss 1
    simpa only [pow_one] using this
  have m1 : ∫ x : ℝ, x ∂gaussianReal 0 1 = 0 := integral_id_gaussianReal
  have m2 : ∫ x : ℝ, (x ^ 2 - 1) ∂gaussianReal 0 1 = 0 := by
    rw [integral_sub g2 (by fun_prop), moment_two]; simp
  have m4 : ∫ x : ℝ, (x ^ 2 - 1) * (x ^ 2 - 1) ∂gaussianReal 0 1 = 2 := by
    have e : ∀ x : ℝ, (x ^ 2 - 1) * (x ^ 2 - 1) = 1 * x ^ 4 + (-2) * x ^ 2 + 1 * 1 := fun x => by ring
    simp only [e]
    rw [integral_lin3 g4 g2 (by fun_prop), moment_four, moment_two]
    simp; norm_num
  have m3 : ∫ x : ℝ, (x ^ 2 - 1) * x ∂gaussianReal 0 1 = 0 := by
    have e : ∀ x : ℝ, (x ^ 2 - 1) * x = x ^ 3 - x := fun x => by ring
    simp only [e]
    rw [integral_sub g3 g1, moment_three, m1, sub_zero]
  have c1 : ∀ q : ℝ → ℝ, ∫ z, q (z k) ∂stdNormal n = ∫ x, q x ∂gaussianReal 0 1 := by
    intro q
    have := integral_split (F := fun _ : Fin n → ℝ => (1 : ℝ)) (k := k) (fun _ _ => rfl) q
    simpa using this
  have i1 : ∀ q : ℝ → ℝ, Integrable q (gaussianReal 0 1) → Integrable (fun z => q (z k)) (stdNormal n) := by
    intro q hq
    have := integrable_split (F := fun _ : Fin n → ℝ => (1 : ℝ)) (k := k) (fun _ _ => rfl) (by fun_prop) hq
    simpa using this
  have hr : ∀ z x, √(H (Function.update z k x)) = √(H z) := fun z x => by rw [hH]
  refine ⟨?_, ?_, ?_, ?_, ?_, ?_, ?_, ?_, ?_⟩
  · have hz : Measurable fun z : Fin n → ℝ => (z k) ^ 2 - 1 := by fun_prop
    rw [memLp_two_iff_integrable_sq hz.aestronglyMeasurable]
    refine i1 (fun x => (x ^ 2 - 1) ^ 2) (((Integrable.sub g4 (g2.const_mul 2)).add (integrable_const 1)).congr
      (.of_forall fun x => ?_))
    simp only [Pi.add_apply, Pi.sub_apply]
    ring
  · have := memLp_mul_coord (k := k) hr (by fun_prop) (hi.congr (.of_forall fun z => (sq_sqrt (h0 z)).symm)) 1
    simpa using this
  · rw [c1 (fun x => x ^ 2 - 1), m2]
  · rw [integral_split hr (fun x => x), m1, mul_zero]
  · rw [c1 (fun x => (x ^ 2 - 1) * (x ^ 2 - 1)), m4]
  · have e : ∀ z, √(H z) * z k * (√(H z) * z k) = H z * (z k) ^ 2 := fun z => by
      have := sq_sqrt (h0 z)
      linear_combination (z k) ^ 2 * this
    simp only [e]
    rw [integral_mul_pow hH, moment_two, mul_one]
  · have e : ∀ z : Fin n → ℝ, ((z k) ^ 2 - 1) * (√(H z) * z k) = √(H z) * (((z k) ^ 2 - 1) * z k) := fun z => by ring
    simp only [e]
    rw [integral_split hr (fun x => (x ^ 2 - 1) * x), m3, mul_zero]
  · rw [integral_split hQ (fun x => x ^ 2 - 1), m2, mul_zero]
  · have e : ∀ z : Fin n → ℝ, Q z * (√(H z) * z k) = Q z * √(H z) * z k := fun z => by ring
    simp only [e]
    rw [integral_split (F := fun z => Q z * √(H z)) (fun z x => by rw [hQ, hH]) (fun x => x), m1, mul_zero]

/-- Deviation of the variance of day `j` from the stationary one. -/
noncomputable def dev (ω α β γ s : ℝ) (j : ℕ) (z : Fin n → ℝ) : ℝ := hnVar ω α β γ s (pad z) j - s

theorem dev_update (z : Fin n → ℝ) (k : Fin n) (x : ℝ) {j : ℕ} (hj : j ≤ k) :
    dev ω α β γ s j (Function.update z k x) = dev ω α β γ s j z := by
  rw [dev, dev, hnVar_update z k x hj]

theorem integrable_of_dev {j : ℕ} (hd : MemLp (dev (n := n) ω α β γ s j) 2 (stdNormal n)) :
    Integrable (fun z : Fin n → ℝ => hnVar ω α β γ s (pad z) j) (stdNormal n) := by
  have := (hd.integrable (by norm_num)).add (integrable_const s)
  refine this.congr (.of_forall fun z => ?_)
  simp [dev]

theorem integral_of_dev {j : ℕ} (hd : MemLp (dev (n := n) ω α β γ s j) 2 (stdNormal n)) :
    ∫ z : Fin n → ℝ, hnVar ω α β γ s (pad z) j ∂stdNormal n = ∫ z, dev (n := n) ω α β γ s j z ∂stdNormal n + s := by
  have : ∀ z : Fin n → ℝ, hnVar ω α β γ s (pad z) j = dev ω α β γ s j z + s := fun z => by simp [dev]
  simp only [this]
  rw [integral_add (hd.integrable (by norm_num)) (integrable_const s)]
  simp

/-- Return of day `j` less its mean. -/
noncomputable def ret (ω α β γ s l : ℝ) (j : ℕ) (z : Fin n → ℝ) : ℝ :=
  l * dev ω α β γ s j z + √(hnVar ω α β γ s (pad z) j) * pad z j

theorem ret_update (l : ℝ) (z : Fin n → ℝ) (k : Fin n) (x : ℝ) {j : ℕ} (hj : j < k) :
    ret ω α β γ s l j (Function.update z k x) = ret ω α β γ s l j z := by
  rw [ret, ret, dev_update z k x hj.le, hnVar_update z k x hj.le, pad_update z k x (by omega)]

section step
variable (hω : 0 ≤ ω) (hα : 0 ≤ α) (hβ : 0 ≤ β) (hs0 : 0 ≤ s) {ρ : ℝ} (hρ : ρ = β + α * γ ^ 2)
  (hs : ω + α = s * (1 - ρ))
include hω hα hβ hs0 hρ hs

theorem dev_next (k : Fin n) (z : Fin n → ℝ) : dev ω α β γ s (k + 1) z = ρ * dev ω α β γ s k z
    + α * ((z k) ^ 2 - 1) + -(2 * α * γ) * (√(hnVar ω α β γ s (pad z) k) * z k) := by
  rw [dev, hnVar, dev_succ hρ hs (hnVar_nonneg hω hα hβ hs0 _ _), shock, dev, pad_lt]
  ring

theorem dev_step (k : Fin n) (hd : MemLp (dev (n := n) ω α β γ s k) 2 (stdNormal n))
    (h0 : ∫ z, dev (n := n) ω α β γ s k z ∂stdNormal n = 0) :
    MemLp (dev (n := n) ω α β γ s (k + 1)) 2 (stdNormal n) ∧ ∫ z, dev (n := n) ω α β γ s (k + 1) z ∂stdNormal n = 0 ∧
    ∫ z, dev (n := n) ω α β γ s (k + 1) z ^ 2 ∂stdNormal n
      = ρ ^ 2 * ∫ z, dev (n := n) ω α β γ s k z ^ 2 ∂stdNormal n + α ^ 2 * (2 + 4 * γ ^ 2 * s) := by
  obtain ⟨mB, mC, iB, iC, iBB, iCC, iBC, iQB, iQC⟩ := noise (k := k)
    (H := fun z => hnVar ω α β γ s (pad z) k) (Q := dev ω α β γ s k)
    (fun z x => hnVar_update z k x le_rfl) (measurable_hnVar _) (fun z => hnVar_nonneg hω hα hβ hs0 _ _)
    (integrable_of_dev hd) (fun z x => dev_update z k x le_rfl)
  rw [integral_of_dev hd, h0, zero_add] at iCC
  have e : dev (n := n) ω α β γ s (k + 1) = fun z => ρ * dev ω α β γ s k z
    + α * ((z k) ^ 2 - 1) + -(2 * α * γ) * (√(hnVar ω α β γ s (pad z) k) * z k) :=
    funext fun z => dev_next hω hα hβ hs0 hρ hs k z
  refine ⟨?_, ?_, ?_⟩
  · rw [e]
    exact ((hd.const_mul ρ).add (mB.const_mul α)).add (mC.const_mul _)
  · rw [e, integral_lin3 (hd.integrable (by norm_num)) (mB.integrable (by norm_num)) (mC.integrable (by norm_num)), h0,
      iB, iC]
    ring
  · simp only [e]
    rw [integral_quad3 hd mB mC, iBB, iCC, iBC, iQB, iQC]
    have : ∀ z : Fin n → ℝ, dev ω α β γ s k z * dev ω α β γ s k z = dev ω α β γ s k z ^ 2 := fun z => by ring
    simp only [this]
    ring

/-- Mean and variance of the variances. -/
theorem dev_moments (hρ1 : ρ < 1) {j : ℕ} (hj : j ≤ n) :
    MemLp (dev (n := n) ω α β γ s j) 2 (stdNormal n) ∧ ∫ z, dev (n := n) ω α β γ s j z ∂stdNormal n = 0 ∧
    ∫ z, dev (n := n) ω α β γ s j z ^ 2 ∂stdNormal n
      = α ^ 2 * (2 + 4 * γ ^ 2 * s) * ((1 - ρ ^ (2 * j)) / (1 - ρ ^ 2)) := by
  have hρ0 : 0 ≤ ρ := by rw [hρ]; positivity
  have hne : 1 - ρ ^ 2 ≠ 0 := by nlinarith
  induction j with
  | zero =>
    have e : dev (n := n) ω α β γ s 0 = fun _ => 0 := by funext z; simp [dev, hnVar]
    rw [e]
    simp
  | succ j ih =>
    obtain ⟨h1, h2, h3⟩ := ih (by omega)
    obtain ⟨g1, g2, g3⟩ := dev_step hω hα hβ hs0 hρ hs ⟨j, by omega⟩ h1 h2
    refine ⟨g1, g2, ?_⟩
    simp only at g3
    rw [g3, h3]
    field_simp
    ring

/-- A square-integrable quantity known before day `k`: its covariance with the variance shrinks by `ρ` per day. -/
theorem cov_step (hρ1 : ρ < 1) (k : Fin n) {Q : (Fin n → ℝ) → ℝ} (hQ : ∀ z x, Q (Function.update z k x) = Q z)
    (hm : MemLp Q 2 (stdNormal n)) :
    ∫ z, Q z * dev (n := n) ω α β γ s (k + 1) z ∂stdNormal n
      = ρ * ∫ z, Q z * dev (n := n) ω α β γ s k z ∂stdNormal n := by
  obtain ⟨hd, h0, -⟩ := dev_moments hω hα hβ hs0 hρ hs hρ1 (n := n) (j := k) k.2.le
  obtain ⟨mB, mC, iB, iC, iBB, iCC, iBC, iQB, iQC⟩ := noise (k := k)
    (H := fun z => hnVar ω α β γ s (pad z) k) (Q := Q)
    (fun z x => hnVar_update z k x le_rfl) (measurable_hnVar _) (fun z => hnVar_nonneg hω hα hβ hs0 _ _)
    (integrable_of_dev hd) hQ
  have e : ∀ z, Q z * dev (n := n) ω α β γ s (k + 1) z = ρ * (Q z * dev ω α β γ s k z)
    + α * (Q z * ((z k) ^ 2 - 1)) + -(2 * α * γ) * (Q z * (√(hnVar ω α β γ s (pad z) k) * z k)) :=
    fun z => by rw [dev_next hω hα hβ hs0 hρ hs k z]; ring
  simp only [e]
  rw [integral_lin3 (A := fun z => Q z * dev ω α β γ s k z) (B := fun z => Q z * ((z k) ^ 2 - 1))
    (C := fun z => Q z * (√(hnVar ω α β γ s (pad z) k) * z k)) (hm.integrable_mul hd) (hm.integrable_mul mB)
    (hm.integrable_mul mC), iQB, iQC]
  ring

/-- Mean and variance of the return of day `k`. -/
theorem ret_moments (hρ1 : ρ < 1) (l : ℝ) (k : Fin n) :
    MemLp (ret (n := n) ω α β γ s l k) 2 (stdNormal n) ∧ ∫ z, ret (n := n) ω α β γ s l k z ∂stdNormal n = 0 ∧
    ∫ z, ret (n := n) ω α β γ s l k z ^ 2 ∂stdNormal n
      = s + l ^ 2 * (α ^ 2 * (2 + 4 * γ ^ 2 * s) * ((1 - ρ ^ (2 * (k : ℕ))) / (1 - ρ ^ 2))) := by
  obtain ⟨hd, h0, h2⟩ := dev_moments hω hα hβ hs0 hρ hs hρ1 (n := n) (j := k) k.2.le
  obtain ⟨mB, mC, iB, iC, iBB, iCC, iBC, iQB, iQC⟩ := noise (k := k)
    (H := fun z => hnVar ω α β γ s (pad z) k) (Q := dev ω α β γ s k)
    (fun z x => hnVar_update z k x le_rfl) (measurable_hnVar _) (fun z => hnVar_nonneg hω hα hβ hs0 _ _)
    (integrable_of_dev hd) (fun z x => dev_update z k x le_rfl)
  rw [integral_of_dev hd, h0, zero_add] at iCC
  have e : ret (n := n) ω α β γ s l k = fun z => l * dev ω α β γ s k z
    + 0 * ((z k) ^ 2 - 1) + 1 * (√(hnVar ω α β γ s (pad z) k) * z k) :=
    funext fun z => by rw [ret, pad_lt]; ring
  refine ⟨?_, ?_, ?_⟩
  · rw [e]
    exact ((hd.const_mul l).add (mB.const_mul 0)).add (mC.const_mul _)
  · rw [e, integral_lin3 (hd.integrable (by norm_num)) (mB.integrable (by norm_num)) (mC.integrable (by norm_num)), h0,
      iB, iC]
    ring
  · simp only [e]
    rw [integral_quad3 hd mB mC, iBB, iCC, iBC, iQB, iQC]
    have : ∀ z : Fin n → ℝ, dev ω α β γ s k z * dev ω α β γ s k z = dev ω α β γ s k z ^ 2 := fun z => by ring
    simp only [this, h2]
    ring

/-- Covariance of a return with the variance of the next day. -/
theorem ret_dev_next (hρ1 : ρ < 1) (l : ℝ) (k : Fin n) :
    ∫ z, ret (n := n) ω α β γ s l k z * dev ω α β γ s (k + 1) z ∂stdNormal n
      = l * ρ * (α ^ 2 * (2 + 4 * γ ^ 2 * s) * ((1 - ρ ^ (2 * (k : ℕ))) / (1 - ρ ^ 2))) - 2 * α * γ * s := by
  obtain ⟨hd, h0, h2⟩ := dev_moments hω hα hβ hs0 hρ hs hρ1 (n := n) (j := k) k.2.le
  obtain ⟨mB, mC, iB, iC, iBB, iCC, iBC, iQB, iQC⟩ := noise (k := k)
    (H := fun z => hnVar ω α β γ s (pad z) k) (Q := dev ω α β γ s k)
    (fun z x => hnVar_update z k x le_rfl) (measurable_hnVar _) (fun z => hnVar_nonneg hω hα hβ hs0 _ _)
    (integrable_of_dev hd) (fun z x => dev_update z k x le_rfl)
  rw [integral_of_dev hd, h0, zero_add] at iCC
  have e : ∀ z, ret (n := n) ω α β γ s l k z * dev ω α β γ s (k + 1) z
      = 1 * ((l * ρ) * (dev ω α β γ s k z * dev ω α β γ s k z) + (l * α) * (dev ω α β γ s k z * ((z k) ^ 2 - 1))
        + (l * (-(2 * α * γ)) + ρ) * (dev ω α β γ s k z * (√(hnVar ω α β γ s (pad z) k) * z k)))
      + α * (((z k) ^ 2 - 1) * (√(hnVar ω α β γ s (pad z) k) * z k))
      + -(2 * α * γ) * (√(hnVar ω α β γ s (pad z) k) * z k * (√(hnVar ω α β γ s (pad z) k) * z k)) :=
    fun z => by rw [dev_next hω hα hβ hs0 hρ hs k z, ret, pad_lt]; ring
  have j1 : Integrable (fun z => dev (n := n) ω α β γ s k z * dev ω α β γ s k z) (stdNormal n) := hd.integrable_mul hd
  have j2 : Integrable (fun z => dev (n := n) ω α β γ s k z * ((z k) ^ 2 - 1)) (stdNormal n) := hd.integrable_mul mB
  have j3 : Integrable (fun z => dev (n := n) ω α β γ s k z * (√(hnVar ω α β γ s (pad z) k) * z k)) (stdNormal n) :=
    hd.integrable_mul mC
  have j4 : Integrable (fun z => ((z k) ^ 2 - 1) * (√(hnVar ω α β γ s (pad z) k) * z k)) (stdNormal n) :=
    mB.integrable_mul mC
  have j5 : Integrable (fun z => √(hnVar ω α β γ s (pad z) k) * z k * (√(hnVar ω α β γ s (pad z) k) * z k))
    (stdNormal n) := mC.integrable_mul mC
  simp only [e]
  rw [integral_lin3 (((j1.const_mul _).fun_add (j2.const_mul _)).fun_add (j3.const_mul _)) j4 j5,
    integral_lin3 j1 j2 j3, iCC, iBC, iQB, iQC]
  have : ∀ z : Fin n → ℝ, dev ω α β γ s k z * dev ω α β γ s k z = dev ω α β γ s k z ^ 2 := fun z => by ring
  simp only [this, h2]
  ring

theorem ret_dev (hρ1 : ρ < 1) (l : ℝ) (k : Fin n) (m : ℕ) (hm : k + 1 + m ≤ n) :
    ∫ z, ret (n := n) ω α β γ s l k z * dev ω α β γ s (k + 1 + m) z ∂stdNormal n
      = ρ ^ m * (l * ρ * (α ^ 2 * (2 + 4 * γ ^ 2 * s) * ((1 - ρ ^ (2 * (k : ℕ))) / (1 - ρ ^ 2))) - 2 * α * γ * s) := by
  induction m with
  | zero => simp only [add_zero, pow_zero, one_mul]; exact ret_dev_next hω hα hβ hs0 hρ hs hρ1 l k
  | succ m ih =>
    have hlt : (k : ℕ) + 1 + m < n := by omega
    have := cov_step hω hα hβ hs0 hρ hs hρ1 (⟨k + 1 + m, hlt⟩ : Fin n) (Q := ret ω α β γ s l k)
      (fun z x => ret_update l z _ x (by simp only; omega)) (ret_moments hω hα hβ hs0 hρ hs hρ1 l k).1
    simp only [← add_assoc] at this ⊢
    rw [this, ih (by omega)]
    ring

/-- Covariance of two returns. -/
theorem ret_cov (hρ1 : ρ < 1) (l : ℝ) (i j : Fin n) (hij : i < j) :
    ∫ z, ret (n := n) ω α β γ s l i z * ret ω α β γ s l j z ∂stdNormal n
      = l * (ρ ^ ((j : ℕ) - i - 1)
        * (l * ρ * (α ^ 2 * (2 + 4 * γ ^ 2 * s) * ((1 - ρ ^ (2 * (i : ℕ))) / (1 - ρ ^ 2))) - 2 * α * γ * s)) := by
  obtain ⟨hd, h0, h2⟩ := dev_moments hω hα hβ hs0 hρ hs hρ1 (n := n) (j := j) j.2.le
  have hQ : ∀ z x, ret ω α β γ s l i (Function.update z j x) = ret ω α β γ s l i z :=
    fun z x => ret_update l z _ x hij
  have hm := (ret_moments hω hα hβ hs0 hρ hs hρ1 l i).1
  obtain ⟨mB, mC, iB, iC, iBB, iCC, iBC, iQB, iQC⟩ := noise (k := j)
    (H := fun z => hnVar ω α β γ s (pad z) j) (Q := ret ω α β γ s l i)
    (fun z x => hnVar_update z j x le_rfl) (measurable_hnVar _) (fun z => hnVar_nonneg hω hα hβ hs0 _ _)
    (integrable_of_dev hd) hQ
  have e : ∀ z, ret (n := n) ω α β γ s l i z * ret ω α β γ s l j z = l * (ret ω α β γ s l i z * dev ω α β γ s j z)
    + 0 * 0 + 1 * (ret ω α β γ s l i z * (√(hnVar ω α β γ s (pad z) j) * z j)) :=
    fun z => by rw [show ret ω α β γ s l j z = l * dev ω α β γ s j z + √(hnVar ω α β γ s (pad z) j) * pad z j from rfl, pad_lt]; ring
  have hlt : (i : ℕ) < j := hij
  have hj : (i : ℕ) + 1 + ((j : ℕ) - i - 1) = j := by omega
  have := ret_dev hω hα hβ hs0 hρ hs hρ1 l i ((j : ℕ) - i - 1) (by omega)
  rw [hj] at this
  simp only [e]
  rw [integral_lin3 (A := fun z => ret ω α β γ s l i z * dev ω α β γ s j z) (B := fun _ => 0)
    (C := fun z => ret ω α β γ s l i z * (√(hnVar ω α β γ s (pad z) j) * z j)) (hm.integrable_mul hd)
    (integrable_const 0) (hm.integrable_mul mC), iQC, this]
  simp

end step
end series
end Verif.HN
