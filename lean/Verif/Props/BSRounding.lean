import Verif.Model.BSFl
import Verif.Spec.BSRounding
import Verif.Props.BS93
import Verif.Props.KirkRounding
import Verif.Props.Tree3dRounding

/-! C144: rounding errors of the Bjerksund–Stensland trigger price. -/
namespace Verif.Props
open Spec Real BSRound

/-- **C144.** In exact arithmetic the function is that of the class, and it is the trigger price of the specification. -/
theorem C144_exact (X T r b σ : ℝ) :
    BSFl.trigger Arith.exact X T r b σ = BS93.trigger X T r b σ ∧ BS93.trigger X T r b σ = boundary X T r b σ := by
  refine ⟨rfl, ?_⟩
  have hβ : BS93.beta r b σ = expo r b σ := rfl
  simp only [BS93.trigger, boundary, fall, high, low, hβ]
  congr 5
  ring

/-- The larger of a positive number and a rounded one. -/
theorem bsr_max {θ x y X : ℝ} (hX : 0 < X) (h : Rel θ x y) : Rel θ (max X x) (max X y) := by
  have hθ := h.nonneg
  obtain ⟨δ, hδ, rfl⟩ := h
  obtain ⟨l, u⟩ := abs_le.1 hδ
  rcases le_or_gt y 0 with hy | hy
  · have : y * exp δ ≤ 0 := mul_nonpos_of_nonpos_of_nonneg hy (exp_pos _).le
    rw [max_eq_left (by linarith), max_eq_left (by linarith)]
    exact Rel.rfl'.mono hθ
  have hm : 0 < max X y := lt_max_of_lt_left hX
  have hm' : 0 < max X (y * exp δ) := lt_max_of_lt_left hX
  refine ⟨log (max X (y * exp δ) / max X y), ?_, by rw [exp_log (by positivity)]; field_simp⟩
  have e1 : exp (-θ) ≤ exp δ := exp_le_exp.2 l
  have e2 : exp δ ≤ exp θ := exp_le_exp.2 u
  have e3 : 1 ≤ exp θ := one_le_exp hθ
  have e4 : exp (-θ) ≤ 1 := exp_le_one_iff.2 (by linarith)
  have m1 : X ≤ max X y := le_max_left _ _
  have m2 : y ≤ max X y := le_max_right _ _
  rw [abs_le]
  constructor
  · rw [le_log_iff_exp_le (by positivity), le_div_iff₀ hm]
    rcases le_total X y with k | k
    · rw [max_eq_right k]
      exact le_max_of_le_right (by nlinarith)
    · rw [max_eq_left k]
      exact le_max_of_le_left (by nlinarith)
  · rw [log_le_iff_le_exp (by positivity), div_le_iff₀ hm]
    exact max_le (by nlinarith) (by nlinarith [exp_pos θ])

section
variable {e : ℝ} {A : Arith} (hA : Rounded e A) (he : 0 ≤ e) (he1 : e < 1)
include hA he he1

omit hA he he1 in
theorem bsr_rad_pos {r b σ : ℝ} (hσ : 0 < σ) (hb : b < r) : 0 < rad r b σ := by
  have h : b / σ ^ 2 < r / σ ^ 2 := div_lt_div_of_pos_right hb (by positivity)
  have : 2 * r / σ ^ 2 = 2 * (r / σ ^ 2) := by ring
  unfold rad
  nlinarith [sq_nonneg (b / σ ^ 2 + 1 / 2)]

/-- The exponent. -/
theorem bsr_expo {r b σ : ℝ} (hσ : 0 < σ) (hb : b < r) (h1 : radErr e r b σ < 1) :
    0 ≤ radLevel e r b σ ∧ Err (radLevel e r b σ + 4 * level e) (BSFl.beta A r b σ) (expo r b σ)
      (|b / σ ^ 2| + 1 / 2 + √(rad r b σ)) := by
  have hL := kirk_level_nonneg he he1
  have lev : -log (1 - e) = level e := rfl
  have hR := bsr_rad_pos hσ hb
  have s := Rel.of_round he he1 (hA.pow σ 2)
  have u := ((Rel.rfl' (y := b)).div s).round he he1 (hA.div _ _)
  have u' := u.err.mono (θ' := 2 * level e) (by linarith)
  have half : Err (2 * level e) (1 / 2 : ℝ) (1 / 2) (1 / 2) :=
    (Err.rfl' (by rw [abs_of_pos] <;> norm_num)).mono (by linarith)
  have a1 := (u'.sub half).round' he he1 (hA.sub _ _)
  have a2 := ((a1.pow 2).round' he he1 (hA.pow _ 2)).mono (θ' := 7 * level e) (by push_cast; linarith)
  have c := (((Rel.of_round he he1 (hA.mul 2 r)).div s).round he he1 (hA.div _ _)).err.mono (θ' := 7 * level e) (by linarith)
  have a3 := ((a2.add c).round' he he1 (hA.add _ _)).mono (θ' := 8 * level e) (by linarith)
  have k : Rel (level (radErr e r b σ)) _ (rad r b σ) := rel_of_abs hR h1 (by
    have := a3.err
    unfold radErr condRad
    rwa [mul_assoc, div_mul_cancel₀ _ hR.ne'])
  have q := k.sqrt.round he he1 (z := A.sqrt _) (by rw [abs_of_nonneg (sqrt_nonneg _)]; exact hA.sqrt _)
  have hq : 0 ≤ level (radErr e r b σ) := k.nonneg
  have q' := q.err
  rw [abs_of_nonneg (sqrt_nonneg _)] at q'
  have hr0 : 0 ≤ radLevel e r b σ := by unfold radLevel; linarith
  refine ⟨hr0, ?_⟩
  have v := ((half.sub u').round' he he1 (hA.sub _ _)).mono (θ' := radLevel e r b σ + 3 * level e) (by linarith)
  have w := ((v.add (q'.mono (θ' := radLevel e r b σ + 3 * level e) (by unfold radLevel; linarith))).round' he he1
    (hA.add _ _)).mono (θ' := radLevel e r b σ + 4 * level e) (by linarith)
  have hB : 1 / 2 + |b / σ ^ 2| + √(rad r b σ) = |b / σ ^ 2| + 1 / 2 + √(rad r b σ) := by ring
  rw [hB] at w
  exact w

/-- The exponent and the exponent less one, as relative errors. -/
theorem bsr_beta2 {r b σ : ℝ} (hσ : 0 < σ) (hb : b < r) (h1 : radErr e r b σ < 1) (h2 : expoErr e r b σ < 1) :
    Rel (level (expoErr e r b σ)) (BSFl.beta A r b σ) (expo r b σ) ∧
    Rel (level (expoErr e r b σ)) (A.sub (BSFl.beta A r b σ) 1) (expo r b σ - 1) := by
  have hL := kirk_level_nonneg he he1
  have lev : -log (1 - e) = level e := rfl
  obtain ⟨hρ, hβ⟩ := bsr_expo hA he he1 hσ hb h1
  have h3 : 1 < expo r b σ := (bs_beta hσ hb).1
  have one : Err (radLevel e r b σ + 4 * level e) (1 : ℝ) 1 1 := (Err.rfl' (by norm_num)).mono (by linarith)
  have d := ((hβ.sub one).round' he he1 (hA.sub _ _)).mono (θ' := radLevel e r b σ + 5 * level e) (by linarith)
  have hm : 0 < expo r b σ - 1 := by linarith
  have he5 := one_le_exp (by linarith : 0 ≤ radLevel e r b σ + 5 * level e)
  have e1 : Rel (level (expoErr e r b σ)) (A.sub (BSFl.beta A r b σ) 1) (expo r b σ - 1) := rel_of_abs hm h2 (by
    have := d.err
    unfold expoErr condExpo
    rw [mul_assoc, div_mul_cancel₀ _ hm.ne']
    convert this using 2
    ring)
  have e2 : Rel (level (expoErr e r b σ)) (BSFl.beta A r b σ) (expo r b σ) := rel_of_abs (by linarith) h2 (by
    have := (hβ.mono (θ' := radLevel e r b σ + 5 * level e) (by linarith)).err
    refine this.trans ?_
    unfold expoErr condExpo
    rw [mul_assoc]
    refine mul_le_mul_of_nonneg_left ?_ (by linarith)
    rw [div_mul_eq_mul_div, le_div_iff₀ hm]
    have hg : 0 ≤ |b / σ ^ 2| + 1 / 2 + √(rad r b σ) := by positivity
    nlinarith)
  exact ⟨e2, e1⟩

theorem bsr_beta {r b σ : ℝ} (hσ : 0 < σ) (hb : b < r) (h1 : radErr e r b σ < 1) (h2 : expoErr e r b σ < 1) :
    Rel (level (expoErr e r b σ)) (BSFl.beta A r b σ) (expo r b σ) := (bsr_beta2 hA he he1 hσ hb h1 h2).1

/-- The perpetual boundary. -/
theorem bsr_high {X r b σ : ℝ} (hσ : 0 < σ) (hb : b < r) (h1 : radErr e r b σ < 1) (h2 : expoErr e r b σ < 1) :
    Rel (highLevel e r b σ) (BSFl.bInf A X r b σ) (high X r b σ) := by
  have hL := kirk_level_nonneg he he1
  have lev : -log (1 - e) = level e := rfl
  obtain ⟨e2, e1⟩ := bsr_beta2 hA he he1 hσ hb h1 h2
  exact (((((e2.div e1).round he he1 (hA.div _ _)).mul (Rel.rfl' (y := X))).round he he1 (hA.mul _ _))).mono
    (by unfold highLevel; linarith)

/-- The boundary at expiry. -/
theorem bsr_low {X r b : ℝ} (hX : 0 < X) : Rel (3 * level e) (BSFl.b0 A X r b) (low X r b) := by
  have hL := kirk_level_nonneg he he1
  have lev : -log (1 - e) = level e := rfl
  have d := Rel.of_round he he1 (hA.sub r b)
  have q := ((Rel.rfl' (y := r)).div d).round he he1 (hA.div _ _)
  have m := (q.mul (Rel.rfl' (y := X))).round he he1 (hA.mul _ _)
  exact bsr_max hX (m.mono (by linarith))

/-- **C144.** The rounded trigger price is within `band` of the trigger price. -/
theorem C144_trigger {X T r b σ : ℝ} (hX : 0 < X) (hσ : 0 < σ) (hb : b < r) (h1 : radErr e r b σ < 1)
    (h2 : expoErr e r b σ < 1) (h3 : gapErr e X r b σ < 1) :
    |BSFl.trigger A X T r b σ - boundary X T r b σ| ≤ band e X T r b σ := by
  have hL := kirk_level_nonneg he he1
  have lev : -log (1 - e) = level e := rfl
  have hh := bsr_high hA he he1 (X := X) hσ hb h1 h2
  have hl := bsr_low hA he he1 (r := r) (b := b) hX
  have hh0 := hh.nonneg
  obtain ⟨o1, o2⟩ : X ≤ low X r b ∧ low X r b < high X r b σ := bs_bounds hX hσ hb
  have o3 : 0 < low X r b := by linarith
  have hm : 0 < high X r b σ - low X r b := by linarith
  -- the distance
  have eh := hh.err.mono (θ' := highLevel e r b σ + 3 * level e) (by linarith)
  have el := hl.err.mono (θ' := highLevel e r b σ + 3 * level e) (by linarith)
  rw [abs_of_pos (by linarith)] at eh
  rw [abs_of_pos o3] at el
  have g := ((eh.sub el).round' he he1 (hA.sub _ _)).mono (θ' := highLevel e r b σ + 4 * level e) (by linarith)
  have D : Rel (level (gapErr e X r b σ)) (A.sub (BSFl.bInf A X r b σ) (BSFl.b0 A X r b)) (high X r b σ - low X r b) :=
    rel_of_abs hm h3 (by
      have := g.err
      unfold gapErr condGap
      rwa [mul_assoc, div_mul_cancel₀ _ hm.ne'])
  have hD := D.nonneg
  -- the exponent
  have t1 := (Rel.of_round he he1 (hA.mul b T)).err.mono (θ' := 3 * level e) (by linarith)
  have t2 := Rel.of_round he he1 (hA.mul 2 σ)
  have t3 := Rel.of_round he he1 (x := √T) (z := A.sqrt T) (by rw [abs_of_nonneg (sqrt_nonneg _)]; exact hA.sqrt _)
  have t4 := ((t2.mul t3).round he he1 (hA.mul _ _)).err.mono (θ' := 3 * level e) (by linarith)
  rw [abs_of_nonneg (by positivity : 0 ≤ 2 * σ * √T)] at t4
  have t5 := ((t1.add t4).round' he he1 (hA.add _ _)).neg
  have l' := hl.err
  rw [abs_of_pos o3] at l'
  have t6 := (t5.mul l').round' he he1 (hA.mul _ _)
  have D' := D.inv.err
  rw [abs_of_pos (inv_pos.2 hm)] at D'
  have t7 := t6.mul D'
  rw [← div_eq_mul_inv, ← div_eq_mul_inv, ← div_eq_mul_inv] at t7
  have t8 := (t7.round' he he1 (hA.div _ _)).mono (θ' := level (gapErr e X r b σ) + 9 * level e) (by linarith)
  have hf : -(b * T + 2 * σ * √T) * low X r b / (high X r b σ - low X r b) = -fall X T r b σ := by unfold fall; ring
  rw [hf] at t8
  have x1 := ((err_rel_exp t8).round he he1 (z := A.exp (BSFl.ht A X T r b σ))
    (by rw [abs_of_pos (exp_pos _)]; exact hA.exp _)).err
  rw [abs_of_pos (exp_pos _)] at x1
  have x2 : Err (fallLevel e X T r b σ) (A.exp (BSFl.ht A X T r b σ)) (exp (-fall X T r b σ)) (exp (-fall X T r b σ)) :=
    x1.mono (by unfold fallLevel fallSize; linarith)
  have hF : 0 ≤ fallLevel e X T r b σ := by
    have h9 := one_le_exp (by linarith : 0 ≤ level (gapErr e X r b σ) + 9 * level e)
    have : 0 ≤ fallSize X T r b σ := by unfold fallSize; positivity
    have := mul_nonneg (sub_nonneg.2 h9) this
    unfold fallLevel; linarith
  have one : Err (fallLevel e X T r b σ) (1 : ℝ) 1 1 := (Err.rfl' (by norm_num)).mono hF
  have x3 := (one.sub x2).round' he he1 (hA.sub _ _)
  have Dm := D.err
  rw [abs_of_pos hm] at Dm
  have x4 := ((Dm.mul x3).round' he he1 (hA.mul _ _)).mono
    (θ' := fallLevel e X T r b σ + level (gapErr e X r b σ) + 5 * level e) (by linarith)
  have x5 := ((l'.mono (θ' := fallLevel e X T r b σ + level (gapErr e X r b σ) + 5 * level e) (by linarith)).add x4).round'
    he he1 (hA.add _ _)
  exact (x5.mono (θ' := triggerLevel e X T r b σ) (by unfold triggerLevel; linarith)).err

open Classical in
/-- **C144.** Outside the band around the trigger price the rounded program takes the decision of the exact one: above it
exercises, and returns the rounded exercise value, below it does not. -/
theorem C144_decision {S X T r b σ : ℝ} (hX : 0 < X) (hσ : 0 < σ) (hb : b < r) (h1 : radErr e r b σ < 1)
    (h2 : expoErr e r b σ < 1) (h3 : gapErr e X r b σ < 1) :
    (boundary X T r b σ + band e X T r b σ ≤ S →
      (∃ v, BSFl.exercised A S X T r b σ = some v ∧ |v - (S - X)| ≤ e * |S - X|) ∧
      BS93.approx S X T r b (some σ) = .ok (S - X, some (boundary X T r b σ))) ∧
    (S < boundary X T r b σ - band e X T r b σ →
      BSFl.exercised A S X T r b σ = none ∧
      BS93.approx S X T r b (some σ)
        = .ok (BS93.below S X T r b σ (boundary X T r b σ), some (boundary X T r b σ))) := by
  have h := C144_trigger hA he he1 (T := T) hX hσ hb h1 h2 h3
  have h0 := (abs_nonneg _).trans h
  obtain ⟨l, u⟩ := abs_le.1 h
  have hn : ¬ b ≥ r := not_le.2 hb
  refine ⟨fun hS => ⟨⟨A.sub S X, ?_, hA.sub _ _⟩, ?_⟩, fun hS => ⟨?_, ?_⟩⟩
  · rw [BSFl.exercised, if_neg hn, if_pos (by simp only [ge_iff_le]; linarith)]
  · rw [BS93.approx, if_neg hn]
    simp only [(C144_exact X T r b σ).2]
    rw [if_pos (by simp only [ge_iff_le]; linarith)]
  · rw [BSFl.exercised, if_neg hn, if_neg (by simp only [ge_iff_le]; linarith)]
  · rw [BS93.approx, if_neg hn]
    simp only [(C144_exact X T r b σ).2]
    rw [if_neg (by simp only [ge_iff_le]; linarith)]

end

/-- **C144.** In double precision, with no cancellation by more than a factor of twenty and the exponent at most twenty, the
error is below `1e-7` of the terms. -/
theorem C144_double {e : ℝ} {A : Arith} (hA : Rounded e A) (he : 0 ≤ e) (he1 : e ≤ 2⁻¹ ^ 53) {X T r b σ : ℝ} (hX : 0 < X)
    (hσ : 0 < σ) (hb : b < r) (c1 : condRad r b σ ≤ 20) (c2 : condExpo r b σ ≤ 20) (c3 : condGap X r b σ ≤ 20)
    (c4 : fallSize X T r b σ ≤ 20) :
    radErr e r b σ < 1 ∧ expoErr e r b σ < 1 ∧ gapErr e X r b σ < 1 ∧ band e X T r b σ ≤ 1e-7 * triggerSize X T r b σ ∧
    |BSFl.trigger A X T r b σ - boundary X T r b σ| ≤ 1e-7 * triggerSize X T r b σ := by
  have he53 : e ≤ 1.2e-16 := he1.trans (by norm_num)
  have hlt : e < 1 := by linarith
  have hl0 : 0 ≤ level e := kirk_level_nonneg he hlt
  have hL : level e ≤ 2.4e-16 := (kirk_level_le he (by linarith)).trans (by linarith)
  have hR := bsr_rad_pos hσ hb
  have hβ : 1 < expo r b σ := (bs_beta hσ hb).1
  have hβ1 : 0 < expo r b σ - 1 := by linarith
  obtain ⟨o1, o2⟩ : X ≤ low X r b ∧ low X r b < high X r b σ := bs_bounds hX hσ hb
  have o3 : 0 < low X r b := by linarith
  have o4 : 0 < high X r b σ := by linarith
  have hm : 0 < high X r b σ - low X r b := by linarith
  have k1 : 0 ≤ condRad r b σ := by unfold condRad; positivity
  have k2 : 0 ≤ condExpo r b σ := by unfold condExpo; positivity
  have k3 : 0 ≤ condGap X r b σ := by unfold condGap; positivity
  have k4 : 0 ≤ fallSize X T r b σ := by unfold fallSize; positivity
  have h8 := kirk_exp_sub_one_le (x := 8 * level e) (by linarith) (by linarith)
  have h8n := one_le_exp (by linarith : 0 ≤ 8 * level e)
  have a0 : 0 ≤ radErr e r b σ := mul_nonneg (by linarith) k1
  have a1 : radErr e r b σ ≤ 3.84e-15 * 20 := mul_le_mul (by linarith) c1 k1 (by norm_num)
  have a2 : level (radErr e r b σ) ≤ _ := kirk_level_le a0 (by linarith)
  have a3 : 0 ≤ level (radErr e r b σ) := kirk_level_nonneg a0 (by linarith)
  have a4 : radLevel e r b σ ≤ 7.8e-14 := by unfold radLevel; linarith
  have a5 : 0 ≤ radLevel e r b σ := by unfold radLevel; linarith
  have h5 := kirk_exp_sub_one_le (x := radLevel e r b σ + 5 * level e) (by linarith) (by linarith)
  have h5n := one_le_exp (by linarith : 0 ≤ radLevel e r b σ + 5 * level e)
  have b0 : 0 ≤ expoErr e r b σ := mul_nonneg (by linarith) k2
  have b1 : expoErr e r b σ ≤ 1.6e-13 * 20 := mul_le_mul (by linarith) c2 k2 (by norm_num)
  have b2 : level (expoErr e r b σ) ≤ _ := kirk_level_le b0 (by linarith)
  have b3 : 0 ≤ level (expoErr e r b σ) := kirk_level_nonneg b0 (by linarith)
  have b4 : highLevel e r b σ ≤ 1.29e-11 := by unfold highLevel; linarith
  have b5 : 0 ≤ highLevel e r b σ := by unfold highLevel; linarith
  have h4 := kirk_exp_sub_one_le (x := highLevel e r b σ + 4 * level e) (by linarith) (by linarith)
  have h4n := one_le_exp (by linarith : 0 ≤ highLevel e r b σ + 4 * level e)
  have d0 : 0 ≤ gapErr e X r b σ := mul_nonneg (by linarith) k3
  have d1 : gapErr e X r b σ ≤ 2.6e-11 * 20 := mul_le_mul (by linarith) c3 k3 (by norm_num)
  have d2 : level (gapErr e X r b σ) ≤ _ := kirk_level_le d0 (by linarith)
  have d3 : 0 ≤ level (gapErr e X r b σ) := kirk_level_nonneg d0 (by linarith)
  have h9 := kirk_exp_sub_one_le (x := level (gapErr e X r b σ) + 9 * level e) (by linarith) (by linarith)
  have h9n := one_le_exp (by linarith : 0 ≤ level (gapErr e X r b σ) + 9 * level e)
  have f0 : 0 ≤ (exp (level (gapErr e X r b σ) + 9 * level e) - 1) * fallSize X T r b σ := mul_nonneg (by linarith) k4
  have f1 : (exp (level (gapErr e X r b σ) + 9 * level e) - 1) * fallSize X T r b σ ≤ 2.1e-9 * 20 :=
    mul_le_mul (by linarith) c4 k4 (by norm_num)
  have t0 : 0 ≤ triggerLevel e X T r b σ := by unfold triggerLevel fallLevel; linarith
  have t1 : triggerLevel e X T r b σ ≤ 4.5e-8 := by unfold triggerLevel fallLevel; linarith
  have t2 := kirk_exp_sub_one_le t0 (by linarith)
  have hg : 0 ≤ triggerSize X T r b σ := by unfold triggerSize; positivity
  have hband : band e X T r b σ ≤ 1e-7 * triggerSize X T r b σ := mul_le_mul_of_nonneg_right (by linarith) hg
  exact ⟨by linarith, by linarith, by linarith, hband,
    (C144_trigger hA he hlt hX hσ hb (by linarith) (by linarith) (by linarith)).trans hband⟩

/-- A case: the parameters of C39, in an arithmetic that is not exact; the error is below `2e-5` for a
strike of forty, and a spot of one hundred is exercised by both programs, a spot of thirty-nine by neither. -/
theorem C144_example :
    Rounded (2⁻¹ ^ 53) (biased (2⁻¹ ^ 53)).toArith ∧ (biased (2⁻¹ ^ 53)).add 1 1 ≠ 2 ∧
    |BSFl.trigger (biased (2⁻¹ ^ 53)).toArith 40 0.75 0.04 (-0.04) 0.35 - boundary 40 0.75 0.04 (-0.04) 0.35| ≤ 2e-5 ∧
    (∃ v, BSFl.exercised (biased (2⁻¹ ^ 53)).toArith 100 40 0.75 0.04 (-0.04) 0.35 = some v) ∧
    BSFl.exercised (biased (2⁻¹ ^ 53)).toArith 39 40 0.75 0.04 (-0.04) 0.35 = none := by
  obtain ⟨hT, hb, -⟩ := C100_example
  have hA := hT.toRounded
  refine ⟨hA, hb, ?_⟩
  have hr : rad 0.04 (-0.04) 0.35 = 12833 / 9604 := by unfold rad; norm_num
  have r1 : 1.15 ≤ √(12833 / 9604 : ℝ) := le_sqrt_of_sq_le (by norm_num)
  have r2 : √(12833 / 9604 : ℝ) ≤ 1.16 := sqrt_le_iff.2 (by norm_num)
  have hx : expo 0.04 (-0.04) 0.35 = 81 / 98 + √(12833 / 9604) := by unfold expo; rw [hr]; norm_num
  have x1 : 1.97 ≤ expo 0.04 (-0.04) 0.35 := by rw [hx]; linarith
  have x2 : expo 0.04 (-0.04) 0.35 ≤ 1.99 := by rw [hx]; linarith
  have hl : low 40 0.04 (-0.04) = 40 := by unfold low; norm_num
  have hq : high 40 0.04 (-0.04) 0.35 = expo 0.04 (-0.04) 0.35 / (expo 0.04 (-0.04) 0.35 - 1) * 40 := rfl
  have q1 : 80 ≤ high 40 0.04 (-0.04) 0.35 := by
    rw [hq, div_mul_eq_mul_div, le_div_iff₀ (by linarith)]; linarith
  have q2 : high 40 0.04 (-0.04) 0.35 ≤ 82 := by
    rw [hq, div_mul_eq_mul_div, div_le_iff₀ (by linarith)]; linarith
  have s1 : 0.86 ≤ √(0.75 : ℝ) := le_sqrt_of_sq_le (by norm_num)
  have s2 : √(0.75 : ℝ) ≤ 0.87 := sqrt_le_iff.2 (by norm_num)
  obtain ⟨b1, b2, b3, b4, b5⟩ := C144_double hA (by positivity) le_rfl (X := 40) (T := 0.75) (r := 0.04) (b := -0.04)
    (σ := 0.35) (by norm_num) (by norm_num) (by norm_num)
    (by unfold condRad; rw [hr, abs_of_neg (by norm_num), abs_of_pos (by norm_num)]; norm_num)
    (by
      unfold condExpo
      rw [hr, abs_of_neg (by norm_num), div_le_iff₀ (by linarith)]
      linarith)
    (by unfold condGap; rw [hl, div_le_iff₀ (by linarith)]; linarith)
    (by
      unfold fallSize
      rw [hl, abs_of_neg (by norm_num), div_le_iff₀ (by linarith)]
      linarith)
  have hf : 0 ≤ fall 40 0.75 0.04 (-0.04) 0.35 := by
    unfold fall
    rw [hl]
    refine div_nonneg (mul_nonneg ?_ (by norm_num)) (by linarith)
    linarith
  have hE : exp (-fall 40 0.75 0.04 (-0.04) 0.35) ≤ 1 := exp_le_one_iff.2 (by linarith)
  have hE0 := exp_pos (-fall 40 0.75 0.04 (-0.04) 0.35)
  have hG : triggerSize 40 0.75 0.04 (-0.04) 0.35 ≤ 130 := by
    unfold triggerSize; rw [hl]; nlinarith
  have hI1 : 40 ≤ boundary 40 0.75 0.04 (-0.04) 0.35 := by unfold boundary; rw [hl]; nlinarith
  have hI2 : boundary 40 0.75 0.04 (-0.04) 0.35 ≤ 82 := by unfold boundary; rw [hl]; nlinarith
  obtain ⟨d1, d2⟩ := C144_decision hA (by positivity) (by norm_num) (S := 100) (T := 0.75) (by norm_num : (0 : ℝ) < 40)
    (by norm_num) (by norm_num) b1 b2 b3
  obtain ⟨d3, d4⟩ := C144_decision hA (by positivity) (by norm_num) (S := 39) (T := 0.75) (by norm_num : (0 : ℝ) < 40)
    (by norm_num) (by norm_num) b1 b2 b3
  refine ⟨by linarith, ?_, (d4 (by linarith)).1⟩
  obtain ⟨v, hv, -⟩ := (d1 (by linarith)).1
  exact ⟨v, hv⟩

end Verif.Props
