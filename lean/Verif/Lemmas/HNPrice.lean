import Verif.Lemmas.HN
import Verif.Lemmas.Dirichlet
import Mathlib.Analysis.Calculus.DSlope
import Mathlib.Analysis.SpecialFunctions.Complex.LogDeriv
import Mathlib.Analysis.Calculus.ParametricIntegral

/-! Fourier inversion for the Heston–Nandi model. -/
namespace Verif.HN
open Verif.Spec Real MeasureTheory ProbabilityTheory Complex Set
open scoped NNReal

variable (ω α β γ r : ℝ)

/-- The coefficients of the risk-neutral model at `s + iu`. -/
noncomputable abbrev RN (s u : ℝ) (n : ℕ) : ℂ × ℂ := AB (-1 / 2 : ℝ) ω α β γ r (s + u * I) n

/-- `s` is zero or one. -/
def Unit01 (s : ℝ) : Prop := s = 0 ∨ s = 1

theorem rn_exists {s : ℝ} (hs : Unit01 s) (n : ℕ) : Exists (-1 / 2) ω α β γ r s n := by
  rcases hs with rfl | rfl
  · exact exists_zero _ _ _ _ _ _ n
  · exact exists_one _ _ _ _ _ n

theorem rn_real {s : ℝ} (hs : Unit01 s) (n : ℕ) : (AB (-1 / 2 : ℝ) ω α β γ r (s : ℂ) n).2 = 0 := by
  rcases hs with rfl | rfl
  · rw [AB_at_zero]
  · have := AB_at_one ω α β γ r n
    rw [this]

variable {ω α β γ r}

theorem rn_re_nonpos (hα : 0 ≤ α) (hβ : 0 ≤ β) {s : ℝ} (hs : Unit01 s) (u : ℝ) (n : ℕ) :
    (RN ω α β γ r s u n).2.re ≤ 0 := by
  have h := re_AB_le (-1 / 2) ω α β γ r hα hβ u (rn_exists ω α β γ r hs n)
  rwa [rn_real ω α β γ r hs n] at h

theorem rn_w (hα : 0 ≤ α) (hβ : 0 ≤ β) {s : ℝ} (hs : Unit01 s) (u : ℝ) (n : ℕ) :
    1 ≤ (1 - 2 * α * (RN ω α β γ r s u n).2).re := by
  have h := rn_re_nonpos (ω := ω) (γ := γ) (r := r) hα hβ hs u n
  simp
  nlinarith

theorem rn_one {s : ℝ} (hs : Unit01 s) (u : ℝ) :
    (RN ω α β γ r s u 1).1.re = s * r ∧ (RN ω α β γ r s u 1).2.re = -u ^ 2 / 2 := by
  rw [RN, AB_one]
  have e : ((-1 / 2 : ℝ) : ℂ) * (s + u * I) + (s + u * I) * (s + u * I) / 2
      = ((-s / 2 + (s ^ 2 - u ^ 2) / 2 : ℝ) : ℂ) + ((-u / 2 + s * u : ℝ) : ℂ) * I := by
    push_cast
    linear_combination (u ^ 2 / 2 : ℂ) * Complex.I_sq
  constructor
  · simp
  · simp only [e]
    rw [Complex.add_re, Complex.ofReal_re, Complex.re_ofReal_mul, Complex.I_re, mul_zero, add_zero]
    rcases hs with rfl | rfl <;> ring

theorem rn_succ (s u : ℝ) (n : ℕ) : (RN ω α β γ r s u (n + 1)).1
    = (RN ω α β γ r s u n).1 + (s + u * I) * r + (RN ω α β γ r s u n).2 * ω
      - Complex.log (1 - 2 * α * (RN ω α β γ r s u n).2) / 2 := by
  rw [RN, AB_succ]; rfl

theorem rn_re_succ (hα : 0 ≤ α) (hβ : 0 ≤ β) {s : ℝ} (hs : Unit01 s) (u : ℝ) (n : ℕ) :
    (RN ω α β γ r s u (n + 1)).1.re ≤ (RN ω α β γ r s u n).1.re + s * r + ω * (RN ω α β γ r s u n).2.re := by
  rw [rn_succ]
  have hw := rn_w (ω := ω) (γ := γ) (r := r) hα hβ hs u n
  have hl : 0 ≤ (Complex.log (1 - 2 * α * (RN ω α β γ r s u n).2) / 2).re := by
    have e : (Complex.log (1 - 2 * α * (RN ω α β γ r s u n).2) / 2).re
        = Real.log ‖1 - 2 * α * (RN ω α β γ r s u n).2‖ / 2 := by
      rw [show (2 : ℂ) = ((2 : ℝ) : ℂ) by norm_num, Complex.div_ofReal_re, Complex.log_re]
    rw [e]
    have : 1 ≤ ‖1 - 2 * α * (RN ω α β γ r s u n).2‖ := hw.trans (Complex.re_le_norm _)
    have := Real.log_nonneg this
    positivity
  rw [Complex.sub_re, Complex.add_re, Complex.add_re, Complex.mul_re (_ + _) (r : ℂ), Complex.mul_re _ (ω : ℂ)]
  simp only [Complex.ofReal_im, mul_zero, sub_zero, Complex.ofReal_re, Complex.add_re, Complex.re_ofReal_mul,
    Complex.I_re, add_zero]
  linarith

/-- Decay of the generating function. -/
theorem rn_decay (hω : 0 ≤ ω) (hα : 0 ≤ α) (hβ : 0 ≤ β) {s : ℝ} (hs : Unit01 s) (u : ℝ) {h : ℝ} (hh : ω ≤ h) (n : ℕ) :
    ((RN ω α β γ r s u (n + 1)).1 + (RN ω α β γ r s u (n + 1)).2 * h).re ≤ s * r * (n + 1) - ω * u ^ 2 / 2 := by
  have hB := rn_re_nonpos (ω := ω) (γ := γ) (r := r) hα hβ hs u
  have h1 := rn_one (ω := ω) (α := α) (β := β) (γ := γ) (r := r) hs u
  have h2 : ∀ n : ℕ, (RN ω α β γ r s u (n + 2)).1.re ≤ s * r * (n + 2) - ω * u ^ 2 / 2 := by
    intro n
    induction n with
    | zero =>
      have := rn_re_succ (ω := ω) (γ := γ) (r := r) hα hβ hs u 1
      rw [h1.1, h1.2] at this
      push_cast
      linarith
    | succ n ih =>
      have := rn_re_succ (ω := ω) (γ := γ) (r := r) hα hβ hs u (n + 2)
      have h3 := mul_nonpos_of_nonneg_of_nonpos hω (hB (n + 2))
      push_cast
      linarith
  rw [Complex.add_re, Complex.mul_re, Complex.ofReal_im, mul_zero, sub_zero, Complex.ofReal_re]
  cases n with
  | zero =>
    rw [h1.1, h1.2]
    have := mul_le_mul_of_nonneg_right hh (by positivity : 0 ≤ u ^ 2 / 2)
    push_cast
    linarith
  | succ n =>
    have h3 := h2 n
    have h4 := mul_nonpos_of_nonpos_of_nonneg (hB (n + 2)) (hω.trans hh)
    push_cast
    linarith

/-- The coefficients are differentiable in `u`. -/
theorem rn_diff (hα : 0 ≤ α) (hβ : 0 ≤ β) {s : ℝ} (hs : Unit01 s) (n : ℕ) :
    Differentiable ℝ (fun u : ℝ => (RN ω α β γ r s u n).1) ∧ Differentiable ℝ (fun u : ℝ => (RN ω α β γ r s u n).2) := by
  induction n with
  | zero => simp only [RN, AB_zero]; constructor <;> fun_prop
  | succ n ih =>
    obtain ⟨h1, h2⟩ := ih
    have hφ : Differentiable ℝ (fun u : ℝ => (s : ℂ) + u * I) := by
      refine (differentiable_const _).add (Differentiable.mul_const ?_ _)
      exact Complex.ofRealCLM.differentiable
    have hwd : Differentiable ℝ (fun u : ℝ => 1 - 2 * (α : ℂ) * (RN ω α β γ r s u n).2) :=
      (differentiable_const _).sub (h2.const_mul _)
    have hw : ∀ u : ℝ, 1 - 2 * (α : ℂ) * (RN ω α β γ r s u n).2 ∈ slitPlane := fun u =>
      Or.inl (by linarith [rn_w (ω := ω) (γ := γ) (r := r) hα hβ hs u n])
    constructor
    · simp only [rn_succ]
      intro u
      exact (((h1 u).add ((hφ u).mul_const _)).add ((h2 u).mul_const _)).sub
        ((((hwd u).hasDerivAt.clog_real (hw u)).differentiableAt).div_const 2)
    · have e : (fun u : ℝ => (RN ω α β γ r s u (n + 1)).2) = fun u : ℝ => ((s : ℂ) + u * I) * ((-1 / 2 : ℝ) + γ)
          - γ ^ 2 / 2 + β * (RN ω α β γ r s u n).2
          + 0.5 * ((s : ℂ) + u * I - γ) ^ 2 / (1 - 2 * α * (RN ω α β γ r s u n).2) := by
        funext u
        rw [RN, AB_succ]; rfl
      rw [e]
      intro u
      exact ((((hφ u).mul_const _).sub_const _).add ((h2 u).const_mul _)).add
        (((((hφ u).sub_const _).pow 2).const_mul _).div (hwd u) (slitPlane_ne_zero (hw u)))

/-- The generating function of the log-return. -/
noncomputable def G (ω α β γ r h : ℝ) (n : ℕ) (s u : ℝ) : ℂ :=
  cexp ((RN ω α β γ r s u n).1 + (RN ω α β γ r s u n).2 * h)

variable {h : ℝ}

theorem G_diff (hα : 0 ≤ α) (hβ : 0 ≤ β) {s : ℝ} (hs : Unit01 s) (n : ℕ) :
    Differentiable ℝ (G ω α β γ r h n s) := by
  obtain ⟨h1, h2⟩ := rn_diff (ω := ω) (γ := γ) (r := r) hα hβ hs n
  exact (h1.add (h2.mul_const _)).cexp

theorem G_norm (hω : 0 ≤ ω) (hα : 0 ≤ α) (hβ : 0 ≤ β) {s : ℝ} (hs : Unit01 s) (u : ℝ) (hh : ω ≤ h) (n : ℕ) :
    ‖G ω α β γ r h (n + 1) s u‖ ≤ rexp (s * r * (n + 1)) * rexp (-(ω / 2) * u ^ 2) := by
  rw [G, Complex.norm_exp, ← Real.exp_add]
  refine Real.exp_le_exp.2 ((rn_decay hω hα hβ hs u hh n).trans (le_of_eq ?_))
  ring

theorem G_im_zero {s : ℝ} (hs : Unit01 s) (n : ℕ) : (G ω α β γ r h n s 0).im = 0 := by
  rw [G, RN]
  simp only [Complex.ofReal_zero, zero_mul, add_zero]
  rw [rn_real ω α β γ r hs n, zero_mul, add_zero]
  rcases hs with rfl | rfl
  · rw [AB_at_zero]; simp
  · rw [AB_at_one]
    rw [show (r : ℂ) * n = ((r * n : ℝ) : ℂ) by push_cast; rfl, ← Complex.ofReal_exp, Complex.ofReal_im]

/-- An integrable bound on everything that occurs. -/
theorem G_bound (hω : 0 < ω) (hα : 0 ≤ α) (hβ : 0 ≤ β) {s : ℝ} (hs : Unit01 s) (hh : ω ≤ h) (n : ℕ) :
    ∃ b : ℝ → ℝ, IntegrableOn b (Ioi 0) ∧ ∀ u > 0, 0 ≤ b u ∧ |(G ω α β γ r h (n + 1) s u).im| / u ≤ b u ∧
      ‖G ω α β γ r h (n + 1) s u‖ ≤ b u ∧ u * ‖G ω α β γ r h (n + 1) s u‖ ≤ b u := by
  set C := rexp (s * r * (n + 1)) with hC
  have hCpos : 0 < C := Real.exp_pos _
  have hd : Differentiable ℝ (fun u => (G ω α β γ r h (n + 1) s u).im) :=
    Complex.imCLM.differentiable.comp (G_diff (ω := ω) (γ := γ) (r := r) (h := h) hα hβ hs (n + 1))
  have hcont : Continuous (dslope (fun u => (G ω α β γ r h (n + 1) s u).im) 0) := by
    rw [← continuousOn_univ, continuousOn_dslope Filter.univ_mem]
    exact ⟨hd.continuous.continuousOn, hd 0⟩
  obtain ⟨M, hM⟩ := isCompact_Icc.exists_bound_of_continuousOn (s := Icc (0 : ℝ) 1) hcont.continuousOn
  have hM0 : 0 ≤ M := (norm_nonneg _).trans (hM 0 (by simp))
  have hnorm := fun u => G_norm (γ := γ) (r := r) hω.le hα hβ hs u hh n
  have hg1 : IntegrableOn (fun u : ℝ => rexp (-(ω / 2) * u ^ 2)) (Ioi 0) :=
    (integrable_exp_neg_mul_sq (by linarith : 0 < ω / 2)).integrableOn
  have hg2 : IntegrableOn (fun u : ℝ => u * rexp (-(ω / 2) * u ^ 2)) (Ioi 0) :=
    (integrable_mul_exp_neg_mul_sq (by linarith : 0 < ω / 2)).integrableOn
  have hg3 : IntegrableOn ((Ioc (0 : ℝ) 1).indicator fun _ => M) (Ioi 0) := by
    refine Integrable.integrableOn ?_
    rw [integrable_indicator_iff measurableSet_Ioc]
    simp
  refine ⟨fun u => (Ioc (0 : ℝ) 1).indicator (fun _ => M) u + (C * rexp (-(ω / 2) * u ^ 2)
    + C * (u * rexp (-(ω / 2) * u ^ 2))), hg3.add ((hg1.const_mul C).add (hg2.const_mul C)), fun u hu => ?_⟩
  have hi : 0 ≤ (Ioc (0 : ℝ) 1).indicator (fun _ => M) u := indicator_nonneg (fun _ _ => hM0) u
  have he : 0 < C * rexp (-(ω / 2) * u ^ 2) := by positivity
  have he2 : 0 < C * (u * rexp (-(ω / 2) * u ^ 2)) := by positivity
  refine ⟨by linarith, ?_, by linarith [hnorm u], ?_⟩
  · rcases le_or_gt u 1 with h1 | h1
    · have h2 := hM u ⟨hu.le, h1⟩
      rw [dslope_of_ne _ hu.ne', slope_def_field, G_im_zero hs, sub_zero, sub_zero, Real.norm_eq_abs, abs_div,
        abs_of_pos hu] at h2
      have h3 := indicator_of_mem (show u ∈ Ioc (0 : ℝ) 1 from ⟨hu, h1⟩) (fun _ => M)
      linarith
    · have h2 : |(G ω α β γ r h (n + 1) s u).im| / u ≤ |(G ω α β γ r h (n + 1) s u).im| :=
        div_le_self (abs_nonneg _) h1.le
      have h3 := (Complex.abs_im_le_norm (G ω α β γ r h (n + 1) s u)).trans (hnorm u)
      linarith
  · have := mul_le_mul_of_nonneg_left (hnorm u) hu.le
    linarith [show u * (C * rexp (-(ω / 2) * u ^ 2)) = C * (u * rexp (-(ω / 2) * u ^ 2)) by ring]

/-- The integrand before taking the real part, without the factor `1/(iuπ)`; `x`, `k` are the logarithms of price
and strike. -/
noncomputable def F (ω α β γ r h : ℝ) (n : ℕ) (s u x k : ℝ) : ℂ :=
  cexp (-(u * I) * k + (s + u * I) * x) * G ω α β γ r h n s u

theorem re_div_uI (z : ℂ) (u : ℝ) : (z / (u * I)).re = z.im / u := by
  rcases eq_or_ne u 0 with rfl | hu
  · simp
  · have : z / (u * I) = ((u⁻¹ : ℝ) : ℂ) * (-(z * I)) := by
      have hu' : (u : ℂ) ≠ 0 := by exact_mod_cast hu
      push_cast
      field_simp
      linear_combination z * Complex.I_sq
    rw [this, Complex.re_ofReal_mul]
    simp
    ring

theorem F_factor (n : ℕ) (s u x k : ℝ) : F ω α β γ r h n s u x k
    = (rexp (s * x) : ℂ) * (cexp ((u * (x - k) : ℝ) * I) * G ω α β γ r h n s u) := by
  rw [F, Complex.ofReal_exp, ← mul_assoc, ← Complex.exp_add]
  congr 2
  push_cast
  ring

theorem F_norm (n : ℕ) (s u x k : ℝ) : ‖F ω α β γ r h n s u x k‖ = rexp (s * x) * ‖G ω α β γ r h n s u‖ := by
  rw [F_factor, norm_mul, norm_mul, Complex.norm_exp_ofReal_mul_I, one_mul, Complex.norm_real, Real.norm_eq_abs,
    abs_of_pos (Real.exp_pos _)]

theorem F_im (n : ℕ) (s u x k : ℝ) : (F ω α β γ r h n s u x k).im
    = rexp (s * x) * (Real.cos (u * (x - k)) * (G ω α β γ r h n s u).im
      + Real.sin (u * (x - k)) * (G ω α β γ r h n s u).re) := by
  rw [F_factor, Complex.im_ofReal_mul, Complex.mul_im, Complex.exp_ofReal_mul_I_re, Complex.exp_ofReal_mul_I_im]

theorem F_im_bound {n : ℕ} {s u x k bu : ℝ} (hu : 0 < u) (h1 : |(G ω α β γ r h n s u).im| / u ≤ bu)
    (h2 : ‖G ω α β γ r h n s u‖ ≤ bu) :
    |(F ω α β γ r h n s u x k).im| / u ≤ rexp (s * x) * ((1 + |x - k|) * bu) := by
  rw [F_im, abs_mul, abs_of_pos (Real.exp_pos _), mul_div_assoc]
  refine mul_le_mul_of_nonneg_left ?_ (Real.exp_pos _).le
  set g := G ω α β γ r h n s u
  have hc := Real.abs_cos_le_one (u * (x - k))
  have hs : |Real.sin (u * (x - k))| ≤ u * |x - k| := by
    refine abs_sin_le_abs.trans ?_
    rw [abs_mul, abs_of_pos hu]
  have hre := (Complex.abs_re_le_norm g).trans h2
  calc |Real.cos (u * (x - k)) * g.im + Real.sin (u * (x - k)) * g.re| / u
      ≤ (1 * |g.im| + u * |x - k| * bu) / u := by
        gcongr
        refine (abs_add_le _ _).trans ?_
        rw [abs_mul, abs_mul]
        gcongr
    _ = |g.im| / u + |x - k| * bu := by field_simp
    _ ≤ (1 + |x - k|) * bu := by linarith

/-- The generating function as an expectation. -/
theorem G_eq (hω : 0 ≤ ω) (hα : 0 ≤ α) (hβ : 0 ≤ β) {s : ℝ} (hs : Unit01 s) (hh : 0 ≤ h) (n : ℕ) (u : ℝ) :
    Integrable (fun z => cexp ((s + u * I) * (hnReturn r (-1 / 2) ω α β γ n h z : ℝ))) (stdNormal n) ∧
    G ω α β γ r h n s u = ∫ z, cexp ((s + u * I) * (hnReturn r (-1 / 2) ω α β γ n h z : ℝ)) ∂stdNormal n := by
  have := mgf_complex (-1 / 2) ω α β γ r hω hα hβ u (rn_exists ω α β γ r hs n) hh
  exact ⟨this.1, this.2.symm⟩

/-- The imaginary part as an expectation of a sine. -/
theorem F_im_eq (hω : 0 ≤ ω) (hα : 0 ≤ α) (hβ : 0 ≤ β) {s : ℝ} (hs : Unit01 s) (hh : 0 ≤ h) (n : ℕ) (u x k : ℝ) :
    (F ω α β γ r h n s u x k).im
      = ∫ z, rexp (s * (x + hnReturn r (-1 / 2) ω α β γ n h z))
          * Real.sin (u * (x + hnReturn r (-1 / 2) ω α β γ n h z - k)) ∂stdNormal n := by
  obtain ⟨h1, h2⟩ := G_eq (γ := γ) (r := r) hω hα hβ hs hh n u
  rw [F, h2, ← integral_const_mul]
  have h3 := integral_im (𝕜 := ℂ) (h1.const_mul (cexp (-(u * I) * k + (s + u * I) * x)))
  simp only [RCLike.im_to_complex] at h3
  rw [← h3]
  congr 1
  funext z
  rw [← Complex.exp_add]
  have e : -(u * I) * k + (s + u * I) * x + (s + u * I) * (hnReturn r (-1 / 2) ω α β γ n h z : ℝ)
      = ((s * (x + hnReturn r (-1 / 2) ω α β γ n h z) : ℝ) : ℂ)
        + ((u * (x + hnReturn r (-1 / 2) ω α β γ n h z - k) : ℝ) : ℂ) * I := by
    push_cast; ring
  rw [e, Complex.exp_add, ← Complex.ofReal_exp, Complex.im_ofReal_mul, Complex.exp_ofReal_mul_I_im]

theorem integrable_weight (hω : 0 ≤ ω) (hα : 0 ≤ α) (hβ : 0 ≤ β) {s : ℝ} (hs : Unit01 s) (hh : 0 ≤ h) (n : ℕ) (x : ℝ) :
    Integrable (fun z => rexp (s * (x + hnReturn r (-1 / 2) ω α β γ n h z))) (stdNormal n) := by
  have h1 := (G_eq (γ := γ) (r := r) hω hα hβ hs hh n 0).1.norm.const_mul (rexp (s * x))
  refine h1.congr (Filter.Eventually.of_forall fun z => ?_)
  simp only [norm_cexp_mul]
  rw [← Real.exp_add]
  congr 1
  ring

theorem integrableOn_F_im (hω : 0 < ω) (hα : 0 ≤ α) (hβ : 0 ≤ β) {s : ℝ} (hs : Unit01 s) (hh : ω ≤ h) (n : ℕ)
    (x k : ℝ) : IntegrableOn (fun u => (F ω α β γ r h (n + 1) s u x k).im / u) (Ioi 0) := by
  obtain ⟨b, hb, hbound⟩ := G_bound (γ := γ) (r := r) hω hα hβ hs hh n
  have hG : Continuous (G ω α β γ r h (n + 1) s) := (G_diff hα hβ hs (n + 1)).continuous
  refine (((hb.const_mul (1 + |x - k|)).const_mul (rexp (s * x)))).mono' ?_ ?_
  · have : Measurable (fun u => (F ω α β γ r h (n + 1) s u x k).im / u) := by
      have := hG.measurable
      simp only [F]
      fun_prop
    exact this.aestronglyMeasurable
  · filter_upwards [ae_restrict_mem measurableSet_Ioi] with u hu
    obtain ⟨-, h1, h2, -⟩ := hbound u hu
    rw [Real.norm_eq_abs, abs_div, abs_of_pos (show (0 : ℝ) < u from hu)]
    exact F_im_bound hu h1 h2

/-- Inversion. -/
theorem integral_F_im (hω : 0 < ω) (hα : 0 ≤ α) (hβ : 0 ≤ β) {s : ℝ} (hs : Unit01 s) (hh : ω ≤ h) (n : ℕ) (x k : ℝ) :
    ∫ u in Ioi (0 : ℝ), (F ω α β γ r h (n + 1) s u x k).im / u
      = π / 2 * ∫ z, rexp (s * (x + hnReturn r (-1 / 2) ω α β γ (n + 1) h z))
          * Real.sign (x + hnReturn r (-1 / 2) ω α β γ (n + 1) h z - k) ∂stdNormal (n + 1) := by
  have hint := integrableOn_F_im (γ := γ) (r := r) hω hα hβ hs hh n x k
  have hm := measurable_hnReturn' (-1 / 2) ω α β γ r (n + 1) h
  have e : ∀ u, (F ω α β γ r h (n + 1) s u x k).im / u
      = (∫ z, rexp (s * (x + hnReturn r (-1 / 2) ω α β γ (n + 1) h z))
          * Real.sin (u * (x + hnReturn r (-1 / 2) ω α β γ (n + 1) h z - k)) ∂stdNormal (n + 1)) / u := fun u => by
    rw [F_im_eq hω.le hα hβ hs (hω.le.trans hh)]
  simp_rw [e] at hint ⊢
  exact integral_inversion (integrable_weight hω.le hα hβ hs (hω.le.trans hh) (n + 1) x) (by fun_prop) hint

theorem add_mul_sign (x : ℝ) : x + x * Real.sign x = 2 * max x 0 := by
  rcases lt_trichotomy x 0 with h | rfl | h
  · rw [Real.sign_of_neg h, max_eq_right h.le]; ring
  · simp
  · rw [Real.sign_of_pos h, max_eq_left h.le]; ring

theorem sign_log_sub {a b : ℝ} (ha : 0 < a) (hb : 0 < b) : Real.sign (Real.log a - Real.log b) = Real.sign (a - b) := by
  rcases lt_trichotomy a b with h | rfl | h
  · rw [Real.sign_of_neg (by linarith [Real.log_lt_log ha h]), Real.sign_of_neg (by linarith)]
  · simp
  · rw [Real.sign_of_pos (by linarith [Real.log_lt_log hb h]), Real.sign_of_pos (by linarith)]

end Verif.HN
