import Mathlib.MeasureTheory.Constructions.Pi
import Mathlib.MeasureTheory.Integral.Pi
import Mathlib.MeasureTheory.Integral.Prod
import Mathlib.MeasureTheory.Integral.DominatedConvergence

/-!
An increasing and a decreasing function of independent variables are negatively correlated.
-/
namespace Verif
open MeasureTheory Filter
open scoped Topology

/-- One variable, bounded functions. -/
theorem integral_mul_le_one (μ : Measure ℝ) [IsProbabilityMeasure μ] {f g : ℝ → ℝ} {C : ℝ} (hf : Measurable f)
    (hg : Measurable g) (bf : ∀ x, |f x| ≤ C) (bg : ∀ x, |g x| ≤ C) (mf : Monotone f) (mg : Antitone g) :
    ∫ x, f x * g x ∂μ ≤ (∫ x, f x ∂μ) * ∫ x, g x ∂μ := by
  have If : Integrable f μ := Integrable.of_bound hf.aestronglyMeasurable C (ae_of_all _ bf)
  have Ig : Integrable g μ := Integrable.of_bound hg.aestronglyMeasurable C (ae_of_all _ bg)
  have Ifg : Integrable (fun x => f x * g x) μ := Integrable.of_bound (hf.mul hg).aestronglyMeasurable (C * C)
    (ae_of_all _ fun x => by
      rw [Real.norm_eq_abs, abs_mul]
      exact mul_le_mul (bf x) (bg x) (abs_nonneg _) ((abs_nonneg _).trans (bf x)))
  have key : ∫ z, (f z.1 - f z.2) * (g z.1 - g z.2) ∂(μ.prod μ) ≤ 0 := by
    refine integral_nonpos fun z => ?_
    rcases le_total z.1 z.2 with h | h
    · exact mul_nonpos_of_nonpos_of_nonneg (sub_nonpos.2 (mf h)) (sub_nonneg.2 (mg h))
    · exact mul_nonpos_of_nonneg_of_nonpos (sub_nonneg.2 (mf h)) (sub_nonpos.2 (mg h))
  have e : ∀ z : ℝ × ℝ, (f z.1 - f z.2) * (g z.1 - g z.2)
      = (f z.1 * g z.1 + f z.2 * g z.2) - (f z.1 * g z.2 + g z.1 * f z.2) := fun z => by ring
  have i1 : Integrable (fun z : ℝ × ℝ => f z.1 * g z.1) (μ.prod μ) := Ifg.comp_fst μ
  have i2 : Integrable (fun z : ℝ × ℝ => f z.2 * g z.2) (μ.prod μ) := Ifg.comp_snd μ
  have i3 : Integrable (fun z : ℝ × ℝ => f z.1 * g z.2) (μ.prod μ) := If.mul_prod Ig
  have i4 : Integrable (fun z : ℝ × ℝ => g z.1 * f z.2) (μ.prod μ) := Ig.mul_prod If
  simp only [e] at key
  rw [integral_sub (i1.fun_add i2) (i3.fun_add i4), integral_add i1 i2, integral_add i3 i4, integral_prod_mul, integral_prod_mul,
    integral_fun_fst (fun x => f x * g x), integral_fun_snd (fun x => f x * g x)] at key
  simp only [probReal_univ, one_smul] at key
  linarith

/-- Bounded functions of `n` variables. -/
theorem integral_mul_le_bounded : ∀ (n : ℕ) (μ : Fin n → Measure ℝ) [∀ i, IsProbabilityMeasure (μ i)]
    {f g : (Fin n → ℝ) → ℝ} {C : ℝ} (_ : Measurable f) (_ : Measurable g) (_ : ∀ x, |f x| ≤ C) (_ : ∀ x, |g x| ≤ C)
    (_ : Monotone f) (_ : Antitone g),
    ∫ x, f x * g x ∂(Measure.pi μ) ≤ (∫ x, f x ∂(Measure.pi μ)) * ∫ x, g x ∂(Measure.pi μ)
  | 0, μ, _, f, g, C, hf, hg, bf, bg, mf, mg => by
    have h : Measure.pi μ = Measure.dirac 0 := by
      rw [Measure.pi_of_empty μ 0]
    simp [h]
  | n + 1, μ, _, f, g, C, hf, hg, bf, bg, mf, mg => by
    have hp := measurePreserving_piFinSuccAbove μ 0
    set e := MeasurableEquiv.piFinSuccAbove (fun _ : Fin (n + 1) => ℝ) 0
    set ν := Measure.pi fun j => μ (Fin.succAbove 0 j)
    have cv : ∀ h : (Fin (n + 1) → ℝ) → ℝ, ∫ x, h x ∂(Measure.pi μ) = ∫ z, h (e.symm z) ∂((μ 0).prod ν) := by
      intro h
      exact ((hp.symm).integral_comp' h).symm
    have he : ∀ (x : ℝ) (y : Fin n → ℝ), e.symm (x, y) = Fin.cons x y := by
      intro x y; simp [e, MeasurableEquiv.piFinSuccAbove, Fin.insertNthEquiv]
    have bnd : ∀ {h : (Fin (n + 1) → ℝ) → ℝ} {D : ℝ}, Measurable h → (∀ x, |h x| ≤ D) →
        Integrable (fun z => h (e.symm z)) ((μ 0).prod ν) ∧ ∀ x, Integrable (fun y => h (e.symm (x, y))) ν := by
      intro h D hh bh
      have hm : Measurable (fun z => h (e.symm z)) := hh.comp e.symm.measurable
      exact ⟨Integrable.of_bound hm.aestronglyMeasurable D (ae_of_all _ fun z => bh _),
        fun x => Integrable.of_bound (hm.comp measurable_prodMk_left).aestronglyMeasurable D (ae_of_all _ fun z => bh _)⟩
    have bfg : ∀ x, |f x * g x| ≤ C * C := fun x => by
      rw [abs_mul]; exact mul_le_mul (bf x) (bg x) (abs_nonneg _) ((abs_nonneg _).trans (bf x))
    have I1 := bnd hf bf
    have I2 := bnd hg bg
    have I3 := bnd (hf.fun_mul hg) bfg
    have meas : ∀ {h : (Fin (n + 1) → ℝ) → ℝ}, Measurable h → Measurable (fun x => ∫ y, h (e.symm (x, y)) ∂ν) := by
      intro h hh
      exact ((hh.comp e.symm.measurable).stronglyMeasurable.integral_prod_right' (ν := ν)).measurable
    have bI : ∀ {h : (Fin (n + 1) → ℝ) → ℝ}, (∀ x, |h x| ≤ C) → ∀ x, |∫ y, h (e.symm (x, y)) ∂ν| ≤ C := by
      intro h bh x
      have := norm_integral_le_of_norm_le_const (μ := ν) (f := fun y => h (e.symm (x, y))) (C := C) (ae_of_all _ fun y => bh _)
      simpa using this
    have cons_le : ∀ {x x' : ℝ} (y : Fin n → ℝ), x ≤ x' → e.symm (x, y) ≤ e.symm (x', y) := by
      intro x x' y h
      rw [he, he]
      exact fun i => Fin.cases (by simpa using h) (fun j => by simp) i
    have cons_le' : ∀ (x : ℝ) {y y' : Fin n → ℝ}, y ≤ y' → e.symm (x, y) ≤ e.symm (x, y') := by
      intro x y y' h
      rw [he, he]
      exact fun i => Fin.cases (by simp) (fun j => by simpa using h j) i
    calc ∫ x, f x * g x ∂(Measure.pi μ)
        = ∫ x, ∫ y, f (e.symm (x, y)) * g (e.symm (x, y)) ∂ν ∂(μ 0) := by rw [cv, integral_prod _ I3.1]
      _ ≤ ∫ x, (∫ y, f (e.symm (x, y)) ∂ν) * ∫ y, g (e.symm (x, y)) ∂ν ∂(μ 0) := by
          refine integral_mono I3.1.integral_prod_left ?_ fun x => ?_
          · refine Integrable.of_bound ((meas hf).mul (meas hg)).aestronglyMeasurable (C * C) (ae_of_all _ fun x => ?_)
            rw [Real.norm_eq_abs, abs_mul]
            exact mul_le_mul (bI bf x) (bI bg x) (abs_nonneg _) ((abs_nonneg _).trans (bI bf x))
          · exact integral_mul_le_bounded n _ (hf.comp (e.symm.measurable.comp measurable_prodMk_left))
              (hg.comp (e.symm.measurable.comp measurable_prodMk_left)) (fun y => bf _) (fun y => bg _)
              (fun y y' h => mf (cons_le' x h)) (fun y y' h => mg (cons_le' x h))
      _ ≤ (∫ x, ∫ y, f (e.symm (x, y)) ∂ν ∂(μ 0)) * ∫ x, ∫ y, g (e.symm (x, y)) ∂ν ∂(μ 0) := by
          refine integral_mul_le_one (μ 0) (meas hf) (meas hg) (bI bf) (bI bg) (fun x x' h => ?_) (fun x x' h => ?_)
          · exact integral_mono (I1.2 x) (I1.2 x') fun y => mf (cons_le y h)
          · exact integral_mono (I2.2 x') (I2.2 x) fun y => mg (cons_le y h)
      _ = _ := by rw [cv f, cv g, integral_prod _ I1.1, integral_prod _ I2.1]

/-- Nonnegative functions of `n` variables. -/
theorem integral_mul_le_pi {n : ℕ} (μ : Fin n → Measure ℝ) [∀ i, IsProbabilityMeasure (μ i)]
    {f g : (Fin n → ℝ) → ℝ} (hf : Measurable f) (hg : Measurable g) (pf : ∀ x, 0 ≤ f x) (pg : ∀ x, 0 ≤ g x)
    (mf : Monotone f) (mg : Antitone g) (If : Integrable f (Measure.pi μ)) (Ig : Integrable g (Measure.pi μ))
    (Ifg : Integrable (fun x => f x * g x) (Measure.pi μ)) :
    ∫ x, f x * g x ∂(Measure.pi μ) ≤ (∫ x, f x ∂(Measure.pi μ)) * ∫ x, g x ∂(Measure.pi μ) := by
  have hmin : ∀ a : ℝ, Tendsto (fun N : ℕ => min a N) atTop (𝓝 a) := by
    intro a
    refine tendsto_const_nhds.congr' ?_
    filter_upwards [eventually_ge_atTop ⌈a⌉₊] with N hN
    rw [min_eq_left ((Nat.le_ceil a).trans (by exact_mod_cast hN))]
  have conv : ∀ {h : (Fin n → ℝ) → ℝ}, Measurable h → (∀ x, 0 ≤ h x) → Integrable h (Measure.pi μ) →
      Tendsto (fun N : ℕ => ∫ x, min (h x) N ∂(Measure.pi μ)) atTop (𝓝 (∫ x, h x ∂(Measure.pi μ))) := by
    intro h hh ph Ih
    refine tendsto_integral_of_dominated_convergence h (fun N => (hh.min measurable_const).aestronglyMeasurable) Ih
      (fun N => ae_of_all _ fun x => ?_) (ae_of_all _ fun x => hmin _)
    rw [Real.norm_eq_abs, abs_of_nonneg (le_min (ph x) N.cast_nonneg)]
    exact min_le_left _ _
  have c3 : Tendsto (fun N : ℕ => ∫ x, min (f x) N * min (g x) N ∂(Measure.pi μ)) atTop
      (𝓝 (∫ x, f x * g x ∂(Measure.pi μ))) := by
    refine tendsto_integral_of_dominated_convergence (fun x => f x * g x)
      (fun N => ((hf.min measurable_const).mul (hg.min measurable_const)).aestronglyMeasurable) Ifg
      (fun N => ae_of_all _ fun x => ?_) (ae_of_all _ fun x => (hmin _).mul (hmin _))
    rw [Real.norm_eq_abs, abs_of_nonneg (mul_nonneg (le_min (pf x) N.cast_nonneg) (le_min (pg x) N.cast_nonneg))]
    exact mul_le_mul (min_le_left _ _) (min_le_left _ _) (le_min (pg x) N.cast_nonneg) (pf x)
  refine le_of_tendsto_of_tendsto' c3 ((conv hf pf If).mul (conv hg pg Ig)) fun N => ?_
  refine integral_mul_le_bounded n μ (C := N) (hf.min measurable_const) (hg.min measurable_const) (fun x => ?_) (fun x => ?_)
    (fun x y h => min_le_min (mf h) le_rfl) (fun x y h => min_le_min (mg h) le_rfl)
  · rw [abs_of_nonneg (le_min (pf x) N.cast_nonneg)]; exact min_le_right _ _
  · rw [abs_of_nonneg (le_min (pg x) N.cast_nonneg)]; exact min_le_right _ _

end Verif
