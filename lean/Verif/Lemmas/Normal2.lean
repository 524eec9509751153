import Verif.Lemmas.Phi
import Verif.Spec.Normal2
import Mathlib.Probability.Distributions.Gaussian.Fernique
import Mathlib.Analysis.SpecialFunctions.Trigonometric.Inverse

/-!
The bivariate normal distribution function: reflection, exchange, and Drezner's reduction to one zero argument.
-/
namespace Verif
open Real MeasureTheory ProbabilityTheory Spec Set

/-- Two independent standard normals. -/
noncomputable abbrev γ2 : Measure (ℝ × ℝ) := (gaussianReal 0 1).prod (gaussianReal 0 1)

theorem γ2_rotate {α β : ℝ} (h : α ^ 2 + β ^ 2 = 1) :
    γ2.map (fun z : ℝ × ℝ => (α * z.1 + β * z.2, -β * z.1 + α * z.2)) = γ2 := by
  obtain ⟨θ, hc, hs⟩ : ∃ θ : ℝ, cos θ = α ∧ sin θ = β := by
    have hα : -1 ≤ α ∧ α ≤ 1 := by constructor <;> nlinarith [sq_nonneg β]
    have h1 : √(1 - α ^ 2) = |β| := by rw [← sqrt_sq_eq_abs]; congr 1; linarith
    rcases le_total 0 β with hb | hb
    · exact ⟨arccos α, cos_arccos hα.1 hα.2, by rw [sin_arccos, h1, abs_of_nonneg hb]⟩
    · exact ⟨-arccos α, by rw [cos_neg, cos_arccos hα.1 hα.2],
        by rw [sin_neg, sin_arccos, h1, abs_of_nonpos hb, neg_neg]⟩
  have h0 : ∫ x, id x ∂(gaussianReal 0 1) = 0 := by
    simpa using integral_id_gaussianReal (μ := 0) (v := 1)
  have := IsGaussian.map_rotation_eq_self h0 θ
  rw [← hc, ← hs]
  exact this

theorem γ2_flip : γ2.map (fun z : ℝ × ℝ => (z.1, -z.2)) = γ2 := by
  have h : (gaussianReal 0 1).map (fun x : ℝ => -x) = gaussianReal 0 1 := by
    rw [gaussianReal_map_neg, neg_zero]
  have := Measure.map_prod_map (gaussianReal 0 1) (gaussianReal 0 1) (f := id) (g := fun x : ℝ => -x)
    measurable_id (by fun_prop)
  rw [h, Measure.map_id] at this
  exact this.symm

theorem γ2_real_preimage {f : ℝ × ℝ → ℝ × ℝ} (hf : Measurable f) (h : γ2.map f = γ2) {s : Set (ℝ × ℝ)}
    (hs : MeasurableSet s) : γ2.real (f ⁻¹' s) = γ2.real s := by
  conv_rhs => rw [← h]
  rw [map_measureReal_apply hf hs]

theorem measurableSet_lin (α β γ δ a b : ℝ) :
    MeasurableSet {z : ℝ × ℝ | α * z.1 + β * z.2 ≤ a ∧ γ * z.1 + δ * z.2 ≤ b} := by
  have h1 : MeasurableSet {z : ℝ × ℝ | α * z.1 + β * z.2 ≤ a} := measurableSet_le (by fun_prop) (by fun_prop)
  have h2 : MeasurableSet {z : ℝ × ℝ | γ * z.1 + δ * z.2 ≤ b} := measurableSet_le (by fun_prop) (by fun_prop)
  exact h1.inter h2

theorem measurableSet_fst (γ δ a b : ℝ) :
    MeasurableSet {z : ℝ × ℝ | z.1 ≤ a ∧ γ * z.1 + δ * z.2 ≤ b} := by
  simpa using measurableSet_lin 1 0 γ δ a b

/-- Any two unit combinations of the two variables have the bivariate law of their correlation. -/
theorem N2_unit {α β γ δ a b : ℝ} (h1 : α ^ 2 + β ^ 2 = 1) (h2 : γ ^ 2 + δ ^ 2 = 1) :
    γ2.real {z | α * z.1 + β * z.2 ≤ a ∧ γ * z.1 + δ * z.2 ≤ b} = N2 a b (α * γ + β * δ) := by
  have hk : √(1 - (α * γ + β * δ) ^ 2) = |α * δ - β * γ| := by
    rw [← sqrt_sq_eq_abs]; congr 1; linear_combination (-δ ^ 2 - γ ^ 2) * h1 - h2
  have key : N2 a b (α * γ + β * δ)
      = γ2.real {z : ℝ × ℝ | z.1 ≤ a ∧ (α * γ + β * δ) * z.1 + (α * δ - β * γ) * z.2 ≤ b} := by
    rw [N2, hk]
    rcases le_total 0 (α * δ - β * γ) with h | h
    · rw [abs_of_nonneg h]
    · rw [abs_of_nonpos h, ← γ2_real_preimage (by fun_prop) γ2_flip]
      · congr 1
        ext z
        simp only [mem_preimage, mem_ofPred_eq]
        rw [neg_mul_neg]
      · exact measurableSet_fst _ _ _ _
  rw [key, ← γ2_real_preimage (s := {z : ℝ × ℝ | z.1 ≤ a ∧ (α * γ + β * δ) * z.1 + (α * δ - β * γ) * z.2 ≤ b})
    (by fun_prop) (γ2_rotate h1)]
  · congr 1
    ext z
    simp only [mem_preimage, mem_ofPred_eq]
    have : (α * γ + β * δ) * (α * z.1 + β * z.2) + (α * δ - β * γ) * (-β * z.1 + α * z.2) = γ * z.1 + δ * z.2 := by
      linear_combination (γ * z.1 + δ * z.2) * h1
    rw [this]
  · exact measurableSet_fst _ _ _ _

theorem unit_rho {ρ : ℝ} (h : |ρ| ≤ 1) : ρ ^ 2 + √(1 - ρ ^ 2) ^ 2 = 1 := by
  rw [sq_sqrt]
  · ring
  · have := sq_abs ρ; have := abs_nonneg ρ; nlinarith

theorem N2_symm {a b ρ : ℝ} (h : |ρ| ≤ 1) : N2 a b ρ = N2 b a ρ := by
  have := N2_unit (a := b) (b := a) (unit_rho h) (γ := 1) (δ := 0) (by ring)
  rw [mul_one, mul_zero, add_zero] at this
  rw [← this, N2]
  congr 1
  ext z
  simp only [mem_ofPred_eq, one_mul, zero_mul, add_zero]
  exact and_comm

theorem Φ_unit {α β : ℝ} (h : α ^ 2 + β ^ 2 = 1) (a : ℝ) : γ2.real {z | α * z.1 + β * z.2 ≤ a} = Φ a := by
  have e : {z : ℝ × ℝ | α * z.1 + β * z.2 ≤ a}
      = (fun z : ℝ × ℝ => (α * z.1 + β * z.2, -β * z.1 + α * z.2)) ⁻¹' (Iic a ×ˢ univ) := by
    ext z; simp
  rw [e, γ2_real_preimage (by fun_prop) (γ2_rotate h) (measurableSet_Iic.prod MeasurableSet.univ),
    measureReal_prod_prod, Φ]
  simp

theorem γ2_line {α β : ℝ} (h : α ^ 2 + β ^ 2 = 1) (a : ℝ) : γ2.real {z | α * z.1 + β * z.2 = a} = 0 := by
  have e : {z : ℝ × ℝ | α * z.1 + β * z.2 = a}
      = (fun z : ℝ × ℝ => (α * z.1 + β * z.2, -β * z.1 + α * z.2)) ⁻¹' ({a} ×ˢ univ) := by
    ext z; simp
  rw [e, γ2_real_preimage (by fun_prop) (γ2_rotate h) ((measurableSet_singleton a).prod MeasurableSet.univ),
    measureReal_prod_prod]
  have := nullSingletonClass_gaussianReal (μ := 0) (v := 1) one_ne_zero
  simp [Measure.real]

/-- Splitting on the sign of a combination that vanishes with probability zero. -/
theorem γ2_split {α β : ℝ} (h : α ^ 2 + β ^ 2 = 1) (c : ℝ) {s : Set (ℝ × ℝ)} :
    γ2.real s = γ2.real (s ∩ {z | α * z.1 + β * z.2 ≤ c}) + γ2.real (s ∩ {z | -α * z.1 + -β * z.2 ≤ -c}) := by
  have hm : MeasurableSet {z : ℝ × ℝ | α * z.1 + β * z.2 ≤ c} := measurableSet_le (by fun_prop) (by fun_prop)
  rw [← measureReal_inter_add_sdiff (s := s) hm]
  congr 1
  have hsub : s \ {z : ℝ × ℝ | α * z.1 + β * z.2 ≤ c} ⊆ s ∩ {z | -α * z.1 + -β * z.2 ≤ -c} := by
    rintro z ⟨h1, h2⟩
    simp only [mem_ofPred_eq, not_le] at h2
    exact ⟨h1, by simp only [mem_ofPred_eq]; linarith⟩
  refine le_antisymm (measureReal_mono hsub) ?_
  have hsub2 : s ∩ {z | -α * z.1 + -β * z.2 ≤ -c}
      ⊆ (s \ {z : ℝ × ℝ | α * z.1 + β * z.2 ≤ c}) ∪ {z | α * z.1 + β * z.2 = c} := by
    rintro z ⟨h1, h2⟩
    simp only [mem_ofPred_eq] at h2
    by_cases h3 : α * z.1 + β * z.2 = c
    · exact Or.inr h3
    · refine Or.inl ⟨h1, fun h4 => h3 ?_⟩
      simp only [mem_ofPred_eq] at h4
      linarith
  refine (measureReal_mono hsub2).trans ((measureReal_union_le _ _).trans ?_)
  rw [γ2_line h, add_zero]

theorem N2_compl {a b ρ : ℝ} (h : |ρ| ≤ 1) : N2 a b ρ + N2 a (-b) (-ρ) = Φ a := by
  have hu := unit_rho h
  have h1 := Φ_unit (α := 1) (β := 0) (by ring) a
  rw [← h1, γ2_split hu b]
  have hu' : (-ρ) ^ 2 + (-√(1 - ρ ^ 2)) ^ 2 = 1 := by linarith
  have e1 := N2_unit (a := a) (b := b) (α := 1) (β := 0) (by ring) hu
  have e2 := N2_unit (a := a) (b := -b) (α := 1) (β := 0) (by ring) hu'
  rw [one_mul, zero_mul, add_zero] at e1 e2
  rw [← e1, ← e2]
  rfl

/-- Drezner's reduction when the two arguments have the same sign. -/
theorem N2_reduce_neg {a b ρ q : ℝ} (h : |ρ| ≤ 1) (ha : a < 0) (hb : b < 0) (hq : 0 < q)
    (hq2 : q ^ 2 = a ^ 2 - 2 * ρ * a * b + b ^ 2) :
    N2 a b ρ = N2 a 0 (-(ρ * a - b) / q) + N2 b 0 (-(ρ * b - a) / q) := by
  have hu := unit_rho h
  set k := √(1 - ρ ^ 2) with hk
  -- the unit direction `(b X - a Y) / q`
  have hd : ((b - a * ρ) / q) ^ 2 + (-(a * k) / q) ^ 2 = 1 := by
    rw [div_pow, div_pow, ← add_div, div_eq_one_iff_eq (by positivity), hq2]
    linear_combination a ^ 2 * hu
  have hd' : (-((b - a * ρ) / q)) ^ 2 + (-(-(a * k) / q)) ^ 2 = 1 := by rw [neg_sq, neg_sq]; exact hd
  rw [N2, γ2_split hd 0]
  have e1 := N2_unit (a := a) (b := 0) (α := 1) (β := 0) (by ring) hd
  have e2 := N2_unit (a := b) (b := 0) hu hd'
  have c1 : 1 * ((b - a * ρ) / q) + 0 * (-(a * k) / q) = -(ρ * a - b) / q := by ring
  have c2 : ρ * -((b - a * ρ) / q) + k * -(-(a * k) / q) = -(ρ * b - a) / q := by
    field_simp
    linear_combination a * hu
  rw [c1] at e1
  rw [c2] at e2
  rw [← e1, ← e2]
  have hz : ∀ z : ℝ × ℝ, (b - a * ρ) / q * z.1 + -(a * k) / q * z.2 = (b * z.1 - a * (ρ * z.1 + k * z.2)) / q := by
    intro z; ring
  have hz' : ∀ z : ℝ × ℝ, -((b - a * ρ) / q) * z.1 + -(-(a * k) / q) * z.2
      = (a * (ρ * z.1 + k * z.2) - b * z.1) / q := by
    intro z; ring
  have sgn : ∀ x : ℝ, x / q ≤ 0 ↔ x ≤ 0 := fun x => by rw [div_le_iff₀ hq, zero_mul]
  congr 2
  · ext z
    simp only [mem_inter_iff, mem_ofPred_eq, hz, sgn, one_mul, zero_mul, add_zero]
    constructor
    · rintro ⟨⟨p, _⟩, r⟩; exact ⟨p, r⟩
    · rintro ⟨p, r⟩; refine ⟨⟨p, ?_⟩, r⟩; nlinarith
  · ext z
    simp only [mem_inter_iff, mem_ofPred_eq, hz', sgn, neg_zero]
    constructor
    · rintro ⟨⟨_, p⟩, r⟩; exact ⟨p, r⟩
    · rintro ⟨p, r⟩; refine ⟨⟨?_, p⟩, r⟩; nlinarith

theorem N2_compl' {a b ρ : ℝ} (h : |ρ| ≤ 1) : N2 a b ρ + N2 (-a) b (-ρ) = Φ b := by
  rw [N2_symm h, N2_symm (a := -a) (by rwa [abs_neg]), N2_compl h]

end Verif
