import Verif.Model.HN
import Verif.Spec.HestonNandi
import Verif.Lemmas.MCLaw
import Mathlib.Analysis.SpecialFunctions.Gaussian.FourierTransform
import Mathlib.MeasureTheory.Integral.Prod

/-! The generating function of the Heston–Nandi model. -/
namespace Verif.HN
open Verif.Spec Real MeasureTheory ProbabilityTheory Complex
open scoped NNReal

/-- Quadratic exponential against the standard normal law. -/
theorem integral_cexp_quad {p : ℂ} (hp : 0 < (1 - 2 * p).re) (q e : ℂ) :
    ∫ z : ℝ, cexp (p * z ^ 2 + q * z + e) ∂gaussianReal 0 1
      = cexp (e - Complex.log (1 - 2 * p) / 2 + q ^ 2 / (2 * (1 - 2 * p))) := by
  rw [integral_gaussianReal_eq_integral_smul one_ne_zero]
  have hb : (p - 1 / 2).re < 0 := by
    simp at hp ⊢
    linarith
  have h1 : ∀ z : ℝ, gaussianPDFReal 0 1 z • cexp (p * z ^ 2 + q * z + e)
      = ((√(2 * π))⁻¹ : ℝ) * cexp ((p - 1 / 2) * z ^ 2 + q * z + e) := by
    intro z
    rw [gaussianPDFReal, real_smul, Complex.ofReal_mul, Complex.ofReal_exp, mul_assoc, ← Complex.exp_add]
    congr 2
    · simp
    · push_cast
      ring
  simp_rw [h1]
  rw [integral_const_mul, integral_cexp_quadratic hb]
  set w := 1 - 2 * p with hw
  have hw0 : w ≠ 0 := by rintro h; rw [h] at hp; simp at hp
  have harg : w.arg ≠ π := by
    intro h
    have := (arg_eq_pi_iff.1 h).1
    linarith
  have hpi : (0 : ℝ) < 2 * π := by positivity
  have e1 : (π : ℂ) / -(p - 1 / 2) = ((2 * π : ℝ) : ℂ) * w⁻¹ := by
    have h2 : -(p - 1 / 2) = w / 2 := by rw [hw]; ring
    rw [h2]
    push_cast
    field_simp
  have hl : Complex.log (((2 * π : ℝ) : ℂ) * w⁻¹) = (Real.log (2 * π) : ℝ) - Complex.log w := by
    rw [Complex.log_ofReal_mul hpi (inv_ne_zero hw0), Complex.log_inv _ harg]
    ring
  have e2 : (((2 * π : ℝ) : ℂ) * w⁻¹) ^ (1 / 2 : ℂ) = (√(2 * π) : ℝ) * cexp (-Complex.log w / 2) := by
    rw [cpow_def_of_ne_zero (mul_ne_zero (by exact_mod_cast hpi.ne') (inv_ne_zero hw0)), hl,
      show ((Real.log (2 * π) : ℝ) - Complex.log w) * (1 / 2 : ℂ)
        = ((Real.log (2 * π) / 2 : ℝ) : ℂ) + -Complex.log w / 2 by push_cast; ring, Complex.exp_add,
      ← Complex.ofReal_exp]
    congr 2
    rw [Real.sqrt_eq_rpow, Real.rpow_def_of_pos hpi]
    congr 1
    ring
  rw [e1, e2, ← mul_assoc, ← mul_assoc, ← Complex.ofReal_mul, inv_mul_cancel₀ (by positivity), Complex.ofReal_one,
    one_mul, ← Complex.exp_add]
  congr 1
  have h3 : 4 * (p - 1 / 2) = -(2 * w) := by rw [hw]; ring
  rw [h3]
  field_simp
  ring

/-! ### Coefficients -/

variable (l ω α β γ r : ℝ)

/-- The coefficients after `n` days, starting from zero. -/
noncomputable def AB (φ : ℂ) (n : ℕ) : ℂ × ℂ := (step φ l ω α β γ r)^[n] (0, 0)

theorem AB_zero (φ : ℂ) : AB l ω α β γ r φ 0 = (0, 0) := rfl

theorem AB_succ (φ : ℂ) (n : ℕ) : AB l ω α β γ r φ (n + 1) = step φ l ω α β γ r (AB l ω α β γ r φ n) := by
  rw [AB, Function.iterate_succ_apply']; rfl

theorem AB_one (φ : ℂ) : AB l ω α β γ r φ 1 = (φ * r, l * φ + φ * φ / 2) := by
  rw [AB_succ, AB_zero, step]
  simp only [mul_zero, sub_zero, Complex.log_one, zero_div, zero_mul, add_zero, zero_add, div_one]
  refine Prod.ext rfl ?_
  norm_num
  ring

/-- The model's loop computes the coefficients. -/
theorem coef_eq (φ : ℂ) {t : ℤ} {n : ℕ} (ht : t = n + 1) : coef φ l ω α β γ r t = AB l ω α β γ r φ (n + 1) := by
  subst ht
  have h1 : ((n : ℤ) + 1 - 1).toNat = n := by omega
  rw [coef, h1, ← AB_one l ω α β γ r φ]
  induction n with
  | zero => rfl
  | succ n ih =>
    rw [List.range_succ, List.foldl_append, ih (by omega), List.foldl_cons, List.foldl_nil, ← AB_succ]

/-- The expectation exists: `0 < 1 - 2 α B_k` for all days but the first, at real argument. -/
def Exists (s : ℝ) (n : ℕ) : Prop := ∀ k < n, 0 < (1 - 2 * α * (AB l ω α β γ r s k).2).re

theorem AB_im (s : ℝ) : ∀ n, (AB l ω α β γ r s n).2.im = 0 := by
  intro n
  induction n with
  | zero => rfl
  | succ n ih =>
    obtain ⟨x, hx⟩ : ∃ x : ℝ, (AB l ω α β γ r s n).2 = x := ⟨_, Complex.ext rfl (by simpa using ih)⟩
    rw [AB_succ, step]
    simp only [hx]
    have : (s : ℂ) * (l + γ) - γ ^ 2 / 2 + β * x + 0.5 * ((s : ℂ) - γ) ^ 2 / (1 - 2 * α * x)
        = ((s * (l + γ) - γ ^ 2 / 2 + β * x + 0.5 * (s - γ) ^ 2 / (1 - 2 * α * x) : ℝ) : ℂ) := by
      push_cast; ring
    rw [this, Complex.ofReal_im]

/-- The real part of `(a + iu)²/w` is at most `a²/c` if `0 < c ≤ Re w`. -/
theorem re_sq_div_le {a u c : ℝ} {w : ℂ} (hc : 0 < c) (hw : c ≤ w.re) :
    (((a : ℂ) + u * I) ^ 2 / w).re ≤ a ^ 2 / c := by
  have hr : 0 < w.re := hc.trans_le hw
  have hn : 0 < w.re ^ 2 + w.im ^ 2 := by positivity
  have e : (((a : ℂ) + u * I) ^ 2 / w).re
      = ((a ^ 2 - u ^ 2) * w.re + 2 * a * u * w.im) / (w.re ^ 2 + w.im ^ 2) := by
    rw [Complex.div_re, Complex.normSq_apply]
    simp [pow_two]
    field_simp
    ring
  rw [e]
  calc _ ≤ a ^ 2 / w.re := by
        rw [div_le_div_iff₀ hn hr]
        nlinarith [sq_nonneg (a * w.im - u * w.re)]
    _ ≤ a ^ 2 / c := by gcongr

/-- The second coefficient's real part is largest at real arguments. -/
theorem re_AB_le (hα : 0 ≤ α) (hβ : 0 ≤ β) {s : ℝ} (u : ℝ) :
    ∀ {n : ℕ}, Exists l ω α β γ r s n → (AB l ω α β γ r (s + u * I) n).2.re ≤ (AB l ω α β γ r s n).2.re := by
  intro n
  induction n with
  | zero => intro _; simp [AB_zero]
  | succ n ih =>
    intro h
    have h0 := ih (fun k hk => h k (by omega))
    have hn := h n (by omega)
    obtain ⟨x, hx⟩ : ∃ x : ℝ, (AB l ω α β γ r s n).2 = x := ⟨_, Complex.ext rfl (by simpa using AB_im l ω α β γ r s n)⟩
    rw [hx] at hn h0
    simp only [Complex.ofReal_re] at h0
    have hn' : 0 < 1 - 2 * α * x := by simpa using hn
    set B := (AB l ω α β γ r (s + u * I) n).2 with hB
    rw [AB_succ, AB_succ, step, step]
    simp only [hx, ← hB]
    have hw : 1 - 2 * α * x ≤ (1 - 2 * (α : ℂ) * B).re := by
      simp
      nlinarith
    have key := re_sq_div_le (a := s - γ) (u := u) hn' hw
    have e1 : (((s : ℂ) + u * I - γ) ^ 2) = (((s - γ : ℝ) : ℂ) + u * I) ^ 2 := by push_cast; ring
    have e2 : (s : ℂ) * (l + γ) - γ ^ 2 / 2 + β * x + 0.5 * ((s : ℂ) - γ) ^ 2 / (1 - 2 * α * x)
        = ((s * (l + γ) - γ ^ 2 / 2 + β * x + 0.5 * (s - γ) ^ 2 / (1 - 2 * α * x) : ℝ) : ℂ) := by
      push_cast; ring
    have e3 : ((s : ℂ) + u * I) * (l + γ) - γ ^ 2 / 2 + β * B + 0.5 * ((s : ℂ) + u * I - γ) ^ 2 / (1 - 2 * α * B)
        = ((s * (l + γ) - γ ^ 2 / 2 : ℝ) : ℂ) + ((u * (l + γ) : ℝ) : ℂ) * I + (β : ℂ) * B
          + ((1 / 2 : ℝ) : ℂ) * ((((s - γ : ℝ) : ℂ) + u * I) ^ 2 / (1 - 2 * α * B)) := by
      rw [e1]; push_cast; ring
    rw [e2, e3, Complex.ofReal_re]
    simp only [Complex.add_re, Complex.re_ofReal_mul, Complex.ofReal_re, Complex.I_re, mul_zero, add_zero]
    have hβB := mul_le_mul_of_nonneg_left h0 hβ
    have : (0.5 : ℝ) * (s - γ) ^ 2 / (1 - 2 * α * x) = 1 / 2 * ((s - γ) ^ 2 / (1 - 2 * α * x)) := by ring
    rw [this]
    linarith

theorem exists_re_pos (hα : 0 ≤ α) (hβ : 0 ≤ β) {s : ℝ} (u : ℝ) {n : ℕ} (h : Exists l ω α β γ r s n) {k : ℕ}
    (hk : k < n) : 0 < (1 - 2 * α * (AB l ω α β γ r (s + u * I) k).2).re := by
  have h1 := re_AB_le l ω α β γ r hα hβ u (fun j hj => h j (by omega) : Exists l ω α β γ r s k)
  have h2 := h k hk
  simp at h2 ⊢
  nlinarith

/-! ### The process -/

theorem hnNext_nonneg {ω α β : ℝ} (hω : 0 ≤ ω) (hα : 0 ≤ α) (hβ : 0 ≤ β) (γ : ℝ) {h : ℝ} (hh : 0 ≤ h) (z : ℝ) :
    0 ≤ hnNext ω α β γ h z := by unfold hnNext; positivity

theorem measurable_hnNext : Measurable (fun x : ℝ × ℝ => hnNext ω α β γ x.1 x.2) := by unfold hnNext; fun_prop

theorem measurable_hnReturn (n : ℕ) :
    Measurable (fun x : ℝ × (Fin n → ℝ) => hnReturn r l ω α β γ n x.1 x.2) := by
  induction n with
  | zero => simp only [hnReturn]; fun_prop
  | succ n ih =>
    simp only [hnReturn]
    have h1 : Measurable (fun x : ℝ × (Fin (n + 1) → ℝ) => (hnNext ω α β γ x.1 (x.2 0), Fin.tail x.2)) := by
      refine Measurable.prodMk ?_ ?_
      · unfold hnNext; fun_prop
      · exact measurable_pi_lambda _ fun i => by simp only [Fin.tail]; fun_prop
    exact Measurable.add (by fun_prop) (ih.comp h1)

theorem measurable_hnReturn' (n : ℕ) (h : ℝ) : Measurable (hnReturn r l ω α β γ n h) :=
  (measurable_hnReturn l ω α β γ r n).comp (by fun_prop : Measurable fun z : Fin n → ℝ => (h, z))

/-- Splitting off the first innovation. -/
theorem mp_cons (n : ℕ) : MeasurePreserving (fun x : ℝ × (Fin n → ℝ) => (Fin.cons x.1 x.2 : Fin (n + 1) → ℝ))
    ((gaussianReal 0 1).prod (stdNormal n)) (stdNormal (n + 1)) := by
  have h := (measurePreserving_piFinSuccAbove (fun _ : Fin (n + 1) => gaussianReal 0 1) 0).symm
  refine ⟨?_, ?_⟩
  · refine measurable_pi_lambda _ fun i => ?_
    refine Fin.cases ?_ (fun j => ?_) i <;> simp <;> fun_prop
  · have h2 := h.map_eq
    simp only [MeasurableEquiv.piFinSuccAbove_symm_apply] at h2
    have e : (fun x : ℝ × (Fin n → ℝ) => (Fin.cons x.1 x.2 : Fin (n + 1) → ℝ))
        = (Fin.insertNthEquiv (fun _ : Fin (n + 1) => ℝ) 0) := by
      funext x
      rw [Fin.insertNthEquiv_zero]
      rfl
    rw [e]
    exact h2

theorem integral_cons {E : Type*} [NormedAddCommGroup E] [NormedSpace ℝ E] (n : ℕ) (f : (Fin (n + 1) → ℝ) → E)
    (hf : Integrable f (stdNormal (n + 1))) :
    ∫ z, f z ∂stdNormal (n + 1) = ∫ x, ∫ y, f (Fin.cons x y) ∂stdNormal n ∂gaussianReal 0 1 := by
  have hmp := mp_cons n
  rw [← hmp.map_eq, integral_map hmp.measurable.aemeasurable, integral_prod]
  · exact hmp.integrable_comp_of_integrable hf
  · rw [hmp.map_eq]; exact hf.aestronglyMeasurable

theorem integrable_cons_iff {E : Type*} [NormedAddCommGroup E] (n : ℕ) (f : (Fin (n + 1) → ℝ) → E)
    (hf : AEStronglyMeasurable f (stdNormal (n + 1))) :
    Integrable f (stdNormal (n + 1))
      ↔ Integrable (fun x : ℝ × (Fin n → ℝ) => f (Fin.cons x.1 x.2)) ((gaussianReal 0 1).prod (stdNormal n)) := by
  have hmp := mp_cons n
  rw [← hmp.map_eq] at hf ⊢
  exact integrable_map_measure hf hmp.measurable.aemeasurable

/-- One day of the generating function. -/
theorem integral_day (φ A B : ℂ) (hB : 0 < (1 - 2 * α * B).re) {h : ℝ} (hh : 0 ≤ h) :
    ∫ x : ℝ, cexp (φ * (r + l * h + √h * x : ℝ)) * cexp (A + B * (hnNext ω α β γ h x : ℝ)) ∂gaussianReal 0 1
      = cexp ((step φ l ω α β γ r (A, B)).1 + (step φ l ω α β γ r (A, B)).2 * h) := by
  have hs : ((√h : ℝ) : ℂ) ^ 2 = h := by rw [← Complex.ofReal_pow, sq_sqrt hh]
  have e : ∀ x : ℝ, cexp (φ * (r + l * h + √h * x : ℝ)) * cexp (A + B * (hnNext ω α β γ h x : ℝ))
      = cexp ((α * B) * x ^ 2 + (√h * (φ - 2 * α * γ * B)) * x
        + (φ * (r + l * h) + A + B * (ω + α * γ ^ 2 * h + β * h))) := by
    intro x
    rw [← Complex.exp_add, hnNext]
    congr 1
    push_cast
    linear_combination (-(α * B * γ ^ 2) : ℂ) * (-hs)
  simp_rw [e]
  have hB' : 0 < (1 - 2 * (α * B)).re := by rwa [← mul_assoc]
  rw [integral_cexp_quad hB']
  congr 1
  simp only [step]
  have hw0 : 1 - 2 * (α : ℂ) * B ≠ 0 := by rintro h; rw [h] at hB; simp at hB
  rw [← mul_assoc, mul_pow, hs]
  obtain ⟨w, hw⟩ : ∃ w, w = 1 - 2 * (α : ℂ) * B := ⟨_, rfl⟩
  have e1 : φ - 2 * α * γ * B = (φ - γ) + γ * w := by rw [hw]; ring
  have e2 : B * (ω + α * γ ^ 2 * h + β * h) = B * ω + γ ^ 2 * h * (1 - w) / 2 + β * h * B := by rw [hw]; ring
  rw [e1, e2, ← hw]
  rw [← hw] at hw0
  generalize Complex.log w = L
  norm_num
  field_simp
  ring

theorem integrable_day (φ A B : ℂ) (hB : 0 < (1 - 2 * α * B).re) {h : ℝ} (hh : 0 ≤ h) :
    Integrable (fun x : ℝ => cexp (φ * (r + l * h + √h * x : ℝ)) * cexp (A + B * (hnNext ω α β γ h x : ℝ)))
      (gaussianReal 0 1) := by
  by_contra hc
  have h1 := integral_day l ω α β γ r φ A B hB hh
  rw [integral_undef hc] at h1
  exact Complex.exp_ne_zero _ h1.symm

theorem hnReturn_cons (n : ℕ) (h x : ℝ) (y : Fin n → ℝ) :
    hnReturn r l ω α β γ (n + 1) h (Fin.cons x y)
      = (r + l * h + √h * x) + hnReturn r l ω α β γ n (hnNext ω α β γ h x) y := by
  simp [hnReturn]

theorem meas_cexp (φ : ℂ) (n : ℕ) (h : ℝ) :
    Measurable (fun z : Fin n → ℝ => cexp (φ * (hnReturn r l ω α β γ n h z : ℝ))) := by
  have := measurable_hnReturn' l ω α β γ r n h
  fun_prop

theorem norm_cexp_mul (s u x : ℝ) : ‖cexp ((s + u * I) * (x : ℝ))‖ = rexp (s * x) := by
  rw [Complex.norm_exp]
  simp

/-- The real generating function. -/
theorem mgf_real (hω : 0 ≤ ω) (hα : 0 ≤ α) (hβ : 0 ≤ β) {s : ℝ} :
    ∀ {n : ℕ}, Exists l ω α β γ r s n → ∀ {h : ℝ}, 0 ≤ h →
      Integrable (fun z => cexp (s * (hnReturn r l ω α β γ n h z : ℝ))) (stdNormal n) ∧
      ∫ z, cexp (s * (hnReturn r l ω α β γ n h z : ℝ)) ∂stdNormal n
        = cexp ((AB l ω α β γ r s n).1 + (AB l ω α β γ r s n).2 * h) := by
  intro n
  induction n with
  | zero =>
    intro _ h _
    simp only [hnReturn, AB_zero]
    simp
  | succ n ih =>
    intro hE h hh
    have ih' := fun {h : ℝ} => @ih (fun k hk => hE k (by omega)) h
    have hn := hE n (by omega)
    have hnorm : ∀ x : ℝ, ‖cexp (s * (x : ℝ))‖ = rexp (s * x) := by
      intro x
      have := norm_cexp_mul s 0 x
      simpa using this
    have hint : Integrable (fun z => cexp (s * (hnReturn r l ω α β γ (n + 1) h z : ℝ))) (stdNormal (n + 1)) := by
      have hm := meas_cexp l ω α β γ r s (n + 1) h
      rw [integrable_cons_iff _ _ hm.aestronglyMeasurable]
      have hm2 : Measurable (fun x : ℝ × (Fin n → ℝ) =>
          cexp (s * (hnReturn r l ω α β γ (n + 1) h (Fin.cons x.1 x.2) : ℝ))) := hm.comp (mp_cons n).measurable
      rw [integrable_prod_iff hm2.aestronglyMeasurable]
      constructor
      · refine Filter.Eventually.of_forall fun x => ?_
        simp only [hnReturn_cons, Complex.ofReal_add _ (hnReturn _ _ _ _ _ _ _ _ _), mul_add, Complex.exp_add]
        exact (ih' (hnNext_nonneg hω hα hβ γ hh x)).1.const_mul _
      · have e : (fun x : ℝ => ((∫ y, ‖cexp (s * (hnReturn r l ω α β γ (n + 1) h (Fin.cons x y) : ℝ))‖
            ∂stdNormal n : ℝ) : ℂ))
            = fun x : ℝ => cexp (s * (r + l * h + √h * x : ℝ)) * cexp ((AB l ω α β γ r s n).1
              + (AB l ω α β γ r s n).2 * (hnNext ω α β γ h x : ℝ)) := by
          funext x
          rw [← (ih' (hnNext_nonneg hω hα hβ γ hh x)).2, ← integral_const_mul, ← integral_complex_ofReal]
          congr 1
          funext y
          rw [hnorm, hnReturn_cons, Complex.ofReal_exp, ← Complex.exp_add]
          congr 1
          push_cast
          ring
        have hi := integrable_day l ω α β γ r s (AB l ω α β γ r s n).1 (AB l ω α β γ r s n).2 hn hh
        rw [← e] at hi
        simpa using hi.re
    refine ⟨hint, ?_⟩
    rw [integral_cons _ _ hint, AB_succ, ← integral_day l ω α β γ r s _ _ hn hh]
    congr 1
    funext x
    rw [← (ih' (hnNext_nonneg hω hα hβ γ hh x)).2, ← integral_const_mul]
    congr 1
    funext y
    rw [hnReturn_cons, ← Complex.exp_add]
    congr 1
    push_cast
    ring

/-- The generating function at complex arguments. -/
theorem mgf_complex (hω : 0 ≤ ω) (hα : 0 ≤ α) (hβ : 0 ≤ β) {s : ℝ} (u : ℝ) :
    ∀ {n : ℕ}, Exists l ω α β γ r s n → ∀ {h : ℝ}, 0 ≤ h →
      Integrable (fun z => cexp ((s + u * I) * (hnReturn r l ω α β γ n h z : ℝ))) (stdNormal n) ∧
      ∫ z, cexp ((s + u * I) * (hnReturn r l ω α β γ n h z : ℝ)) ∂stdNormal n
        = cexp ((AB l ω α β γ r (s + u * I) n).1 + (AB l ω α β γ r (s + u * I) n).2 * h) := by
  intro n
  induction n with
  | zero =>
    intro _ h _
    simp only [hnReturn, AB_zero]
    simp
  | succ n ih =>
    intro hE h hh
    have ih' := fun {h : ℝ} => @ih (fun k hk => hE k (by omega)) h
    have hn := exists_re_pos l ω α β γ r hα hβ u hE (Nat.lt_succ_self n)
    have hint : Integrable (fun z => cexp ((s + u * I) * (hnReturn r l ω α β γ (n + 1) h z : ℝ)))
        (stdNormal (n + 1)) := by
      refine (mgf_real l ω α β γ r hω hα hβ hE hh).1.mono
        (meas_cexp l ω α β γ r _ (n + 1) h).aestronglyMeasurable (Filter.Eventually.of_forall fun z => ?_)
      have h1 := norm_cexp_mul s u (hnReturn r l ω α β γ (n + 1) h z)
      have h2 := norm_cexp_mul s 0 (hnReturn r l ω α β γ (n + 1) h z)
      simp only [Complex.ofReal_zero, zero_mul, add_zero] at h2
      exact (h1.trans h2.symm).le
    refine ⟨hint, ?_⟩
    rw [integral_cons _ _ hint, AB_succ, ← integral_day l ω α β γ r (s + u * I) _ _ hn hh]
    congr 1
    funext x
    rw [← (ih' (hnNext_nonneg hω hα hβ γ hh x)).2, ← integral_const_mul]
    congr 1
    funext y
    rw [hnReturn_cons, ← Complex.exp_add]
    congr 1
    push_cast
    ring

/-- At argument zero the second coefficient vanishes. -/
theorem AB_at_zero (n : ℕ) : AB l ω α β γ r ((0 : ℝ) : ℂ) n = (0, 0) := by
  induction n with
  | zero => rfl
  | succ n ih =>
    rw [AB_succ, ih, step]
    norm_num
    ring

/-- At argument one, risk-neutral drift, the coefficients are `r n` and zero. -/
theorem AB_at_one (n : ℕ) : AB (-1 / 2) ω α β γ r ((1 : ℝ) : ℂ) n = ((r : ℂ) * n, (0 : ℂ)) := by
  induction n with
  | zero => simp [AB_zero]
  | succ n ih =>
    rw [AB_succ, ih, step]
    simp only [mul_zero, sub_zero, Complex.log_one, zero_mul, zero_div, add_zero, div_one]
    refine Prod.ext ?_ ?_
    · push_cast; ring
    · push_cast; ring

theorem exists_zero (n : ℕ) : Exists l ω α β γ r 0 n := by
  intro k _
  rw [AB_at_zero]
  simp

theorem exists_one (n : ℕ) : Exists (-1 / 2) ω α β γ r 1 n := by
  intro k _
  rw [AB_at_one]
  simp

end Verif.HN
