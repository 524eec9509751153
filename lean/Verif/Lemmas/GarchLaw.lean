import Verif.Lemmas.HN
import Verif.Lemmas.Garch
import Mathlib.Probability.Distributions.Gaussian.Real

/-!
The law of the simulated series has the product of conditional normal densities as density.
-/
namespace Verif.HN
open Verif Verif.Spec Real MeasureTheory ProbabilityTheory
open scoped ENNReal

variable (l ω α β γ r : ℝ)

/-- The series driven by innovations `z`. -/
noncomputable def series : (n : ℕ) → ℝ → (Fin n → ℝ) → (Fin n → ℝ)
  | 0, _, _ => Fin.elim0
  | n + 1, h, z => Fin.cons (hnObs r l h (z 0)) (series n (hnNext ω α β γ h (z 0)) (Fin.tail z))

/-- Product of conditional densities. -/
noncomputable def dens : (n : ℕ) → ℝ → (Fin n → ℝ) → ℝ
  | 0, _, _ => 1
  | n + 1, h, x => gaussianPDFReal (r + l * h) h.toNNReal (x 0)
      * dens n (hnNext ω α β γ h (hnInno r l h (x 0))) (Fin.tail x)

theorem dens_nonneg (n : ℕ) (h : ℝ) (x : Fin n → ℝ) : 0 ≤ dens l ω α β γ r n h x := by
  induction n generalizing h with
  | zero => simp [dens]
  | succ n ih => exact mul_nonneg (gaussianPDFReal_nonneg _ _ _) (ih _ _)

theorem measurable_tail (n : ℕ) : Measurable (fun z : Fin (n + 1) → ℝ => Fin.tail z) :=
  measurable_pi_lambda _ fun i => by simp only [Fin.tail]; fun_prop

theorem measurable_series (n : ℕ) :
    Measurable (fun x : ℝ × (Fin n → ℝ) => series l ω α β γ r n x.1 x.2) := by
  induction n with
  | zero => exact measurable_pi_lambda _ fun i => i.elim0
  | succ n ih =>
    simp only [series]
    have h1 : Measurable (fun x : ℝ × (Fin (n + 1) → ℝ) => (hnNext ω α β γ x.1 (x.2 0), Fin.tail x.2)) := by
      refine Measurable.prodMk ?_ ((measurable_tail n).comp measurable_snd)
      unfold hnNext; fun_prop
    have h2 := ih.comp h1
    refine measurable_pi_lambda _ fun i => ?_
    refine Fin.cases ?_ (fun j => ?_) i
    · simp only [Fin.cons_zero, hnObs]; fun_prop
    · simp only [Fin.cons_succ]
      exact (measurable_pi_apply j).comp h2

theorem measurable_gaussianPDF2 :
    Measurable (fun x : ℝ × ℝ => gaussianPDFReal (r + l * x.1) x.1.toNNReal x.2) := by
  unfold gaussianPDFReal
  have : Measurable (fun x : ℝ × ℝ => (x.1.toNNReal : ℝ)) := by fun_prop
  fun_prop

theorem measurable_dens (n : ℕ) : Measurable (fun x : ℝ × (Fin n → ℝ) => dens l ω α β γ r n x.1 x.2) := by
  induction n with
  | zero => simp only [dens]; fun_prop
  | succ n ih =>
    simp only [dens]
    have h1 : Measurable (fun x : ℝ × (Fin (n + 1) → ℝ) =>
        (hnNext ω α β γ x.1 (hnInno r l x.1 (x.2 0)), Fin.tail x.2)) := by
      refine Measurable.prodMk ?_ ((measurable_tail n).comp measurable_snd)
      unfold hnNext hnInno; fun_prop
    exact ((measurable_gaussianPDF2 l r).comp (by fun_prop : Measurable fun x : ℝ × (Fin (n + 1) → ℝ) => (x.1, x.2 0))).mul
      (ih.comp h1)

theorem measurable_series' (n : ℕ) (h : ℝ) : Measurable (series l ω α β γ r n h) :=
  (measurable_series l ω α β γ r n).comp (by fun_prop : Measurable fun z : Fin n → ℝ => (h, z))

/-- Splitting off the first coordinate, for a product of equal measures. -/
theorem mp_cons' (μ : Measure ℝ) [SigmaFinite μ] (n : ℕ) :
    MeasurePreserving (fun x : ℝ × (Fin n → ℝ) => (Fin.cons x.1 x.2 : Fin (n + 1) → ℝ))
    (μ.prod (Measure.pi fun _ : Fin n => μ)) (Measure.pi fun _ : Fin (n + 1) => μ) := by
  have h := (measurePreserving_piFinSuccAbove (fun _ : Fin (n + 1) => μ) 0).symm
  refine ⟨?_, ?_⟩
  · refine measurable_pi_lambda _ fun i => ?_
    refine Fin.cases ?_ (fun j => ?_) i <;> simp <;> fun_prop
  · have h2 := h.map_eq
    simp only [MeasurableEquiv.piFinSuccAbove_symm_apply] at h2
    have e : (fun x : ℝ × (Fin n → ℝ) => (Fin.cons x.1 x.2 : Fin (n + 1) → ℝ))
        = (Fin.insertNthEquiv (fun _ : Fin (n + 1) => ℝ) 0) := by
      funext x
      rw [Fin.insertNthEquiv_zero]
      rfl
    rw [e]
    exact h2

theorem lintegral_cons' (μ : Measure ℝ) [SigmaFinite μ] (n : ℕ) (f : (Fin (n + 1) → ℝ) → ℝ≥0∞) (hf : Measurable f) :
    ∫⁻ z, f z ∂(Measure.pi fun _ : Fin (n + 1) => μ)
      = ∫⁻ x, ∫⁻ y, f (Fin.cons x y) ∂(Measure.pi fun _ : Fin n => μ) ∂μ := by
  have hmp := mp_cons' μ n
  rw [← hmp.map_eq, lintegral_map hf hmp.measurable, lintegral_prod]
  exact (hf.comp hmp.measurable).aemeasurable

theorem map_hnObs {h : ℝ} (hh : 0 < h) :
    (gaussianReal 0 1).map (hnObs r l h) = gaussianReal (r + l * h) h.toNNReal := by
  have e : hnObs r l h = (fun x => (r + l * h) + x) ∘ fun x => √h * x := rfl
  rw [e, ← Measure.map_map (by fun_prop) (by fun_prop), gaussianReal_map_const_mul, gaussianReal_map_const_add]
  congr 1
  · simp
  · ext
    simp [sq_sqrt hh.le, hh.le]

/-- Expectation over the innovations is integration against the density. -/
theorem lintegral_series (hω : 0 < ω) (hα : 0 ≤ α) (hβ : 0 ≤ β) (n : ℕ) : ∀ {h : ℝ}, ω ≤ h →
    ∀ f : (Fin n → ℝ) → ℝ≥0∞, Measurable f →
    ∫⁻ z, f (series l ω α β γ r n h z) ∂stdNormal n
      = ∫⁻ x, f x * ENNReal.ofReal (dens l ω α β γ r n h x) := by
  induction n with
  | zero =>
    intro h _ f _
    simp only [dens, ENNReal.ofReal_one, mul_one]
    have e : ∀ x : Fin 0 → ℝ, f x = f Fin.elim0 := fun x => by congr 1; exact Subsingleton.elim _ _
    simp_rw [e]
    rw [lintegral_const, lintegral_const]
    have hv : (volume : Measure (Fin 0 → ℝ)) Set.univ = 1 := by
      rw [volume_pi, Measure.pi_univ]; simp
    rw [hv, measure_univ]
  | succ n ih =>
    intro h hh f hf
    have hh0 : 0 < h := hω.trans_le hh
    have hms : Measurable fun z => f (series l ω α β γ r (n + 1) h z) := hf.comp (measurable_series' l ω α β γ r (n + 1) h)
    have hcons : Measurable (fun x : ℝ × (Fin n → ℝ) => (Fin.cons x.1 x.2 : Fin (n + 1) → ℝ)) := (mp_cons n).measurable
    rw [stdNormal, lintegral_cons' _ n _ hms]
    have h1 : ∀ z0 : ℝ, ∫⁻ y, f (series l ω α β γ r (n + 1) h (Fin.cons z0 y)) ∂(Measure.pi fun _ : Fin n => gaussianReal 0 1)
        = ∫⁻ y, f (Fin.cons (hnObs r l h z0) y)
          * ENNReal.ofReal (dens l ω α β γ r n (hnNext ω α β γ h (hnInno r l h (hnObs r l h z0))) y) := by
      intro z0
      simp only [series, Fin.cons_zero, Fin.tail_cons]
      rw [hnInno_hnObs hh0]
      exact ih (le_hnNext hα hβ hh0.le) (fun y => f (Fin.cons (hnObs r l h z0) y))
        (hf.comp (hcons.comp (by fun_prop : Measurable fun y : Fin n → ℝ => (hnObs r l h z0, y))))
    simp_rw [h1]
    have hjoint : Measurable (fun x : ℝ × (Fin n → ℝ) => f (Fin.cons x.1 x.2)
        * ENNReal.ofReal (dens l ω α β γ r n (hnNext ω α β γ h (hnInno r l h x.1)) x.2)) := by
      have hk : Measurable (fun x : ℝ × (Fin n → ℝ) => (hnNext ω α β γ h (hnInno r l h x.1), x.2)) := by
        refine Measurable.prodMk ?_ measurable_snd
        unfold hnNext hnInno; fun_prop
      exact (hf.comp hcons).mul (ENNReal.measurable_ofReal.comp ((measurable_dens l ω α β γ r n).comp hk))
    have hobs : Measurable (hnObs r l h) := by unfold hnObs; fun_prop
    have hg : Measurable (fun x0 : ℝ => ∫⁻ y : Fin n → ℝ, f (Fin.cons x0 y)
        * ENNReal.ofReal (dens l ω α β γ r n (hnNext ω α β γ h (hnInno r l h x0)) y)) :=
      hjoint.lintegral_prod_right'
    rw [← lintegral_map hg hobs, map_hnObs l r hh0,
      gaussianReal_of_var_ne_zero _ (by simpa using hh0), lintegral_withDensity_eq_lintegral_mul _ (measurable_gaussianPDF _ _) hg]
    have hmd : Measurable (fun x : Fin (n + 1) → ℝ => f x * ENNReal.ofReal (dens l ω α β γ r (n + 1) h x)) :=
      hf.mul (ENNReal.measurable_ofReal.comp ((measurable_dens l ω α β γ r (n + 1)).comp
        (by fun_prop : Measurable fun x : Fin (n + 1) → ℝ => (h, x))))
    have hlast := lintegral_cons' volume n _ hmd
    rw [← volume_pi] at hlast
    rw [hlast]
    refine lintegral_congr fun x0 => ?_
    simp only [Pi.mul_apply]
    have hx0 : Measurable (fun y : Fin n → ℝ => f (Fin.cons x0 y)
        * ENNReal.ofReal (dens l ω α β γ r n (hnNext ω α β γ h (hnInno r l h x0)) y)) :=
      hjoint.comp (by fun_prop : Measurable fun y : Fin n → ℝ => (x0, y))
    rw [← lintegral_const_mul _ hx0]
    rw [← volume_pi]
    refine lintegral_congr fun y => ?_
    simp only [dens, Fin.cons_zero, Fin.tail_cons, gaussianPDF]
    rw [ENNReal.ofReal_mul (gaussianPDFReal_nonneg _ _ _)]
    ring

/-- The law of the series. -/
theorem map_series (hω : 0 < ω) (hα : 0 ≤ α) (hβ : 0 ≤ β) (n : ℕ) {h : ℝ} (hh : ω ≤ h) :
    (stdNormal n).map (series l ω α β γ r n h)
      = volume.withDensity fun x => ENNReal.ofReal (dens l ω α β γ r n h x) := by
  have hms := measurable_series' l ω α β γ r n h
  ext s hs
  rw [withDensity_apply _ hs, ← lintegral_indicator_one (μ := Measure.map _ _) hs,
    lintegral_map (measurable_one.indicator hs) hms]
  have := lintegral_series l ω α β γ r hω hα hβ n hh (s.indicator 1) (measurable_one.indicator hs)
  rw [this, ← lintegral_indicator hs]
  refine lintegral_congr fun x => ?_
  by_cases hx : x ∈ s <;> simp [hx]

/-! ### Sequences -/

theorem hnVar_shift (h : ℝ) (z : ℕ → ℝ) (k : ℕ) :
    hnVar ω α β γ h z (k + 1) = hnVar ω α β γ (hnNext ω α β γ h (z 0)) (fun i => z (i + 1)) k := by
  induction k with
  | zero => rfl
  | succ k ih => rw [hnVar, ih, hnVar]

theorem hnFilt_shift (h : ℝ) (x : ℕ → ℝ) (k : ℕ) : hnFilt r l ω α β γ h x (k + 1)
    = hnFilt r l ω α β γ (hnNext ω α β γ h (hnInno r l h (x 0))) (fun i => x (i + 1)) k := by
  induction k with
  | zero => rfl
  | succ k ih => rw [hnFilt, ih, hnFilt]

theorem series_apply (n : ℕ) (h : ℝ) (z : ℕ → ℝ) (i : Fin n) :
    series l ω α β γ r n h (fun i => z i) i = hnObs r l (hnVar ω α β γ h z i) (z i) := by
  induction n generalizing h z with
  | zero => exact i.elim0
  | succ n ih =>
    rw [series]
    refine Fin.cases ?_ (fun j => ?_) i
    · simp [hnVar]
    · rw [Fin.cons_succ, Fin.val_succ, hnVar_shift]
      exact ih _ (fun i => z (i + 1)) j

theorem dens_eq (n : ℕ) (h : ℝ) (x : ℕ → ℝ) : dens l ω α β γ r n h (fun i => x i)
    = ((List.range n).map fun i => gaussianPDFReal (r + l * hnFilt r l ω α β γ h x i)
        (hnFilt r l ω α β γ h x i).toNNReal (x i)).prod := by
  induction n generalizing h x with
  | zero => simp [dens]
  | succ n ih =>
    rw [dens, List.range_succ_eq_map, List.map_cons, List.prod_cons, List.map_map]
    congr 1
    have := ih (hnNext ω α β γ h (hnInno r l h (x 0))) (fun i => x (i + 1))
    simp only [Function.comp_def, Nat.succ_eq_add_one, hnFilt_shift]
    exact this

end Verif.HN
