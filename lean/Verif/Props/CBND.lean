import Verif.Lemmas.CBND
import Mathlib.Analysis.Real.Pi.Irrational

/-!
C37: the bivariate normal function `_CBND`.

The law `N2(a,b,ρ) + N2(a,-b,-ρ) = N(a)` holds exactly except on the set `b = ρ a` (`a ≠ 0` or `ρ = 0`),
where the code uses the quadrature for both terms and the two sides differ by the quadrature error;
`C37_complement_fails` shows that they do differ.
-/
namespace Verif.Props
open Verif Real

/-- `_CBND` returns a number for all arguments, with at most three nested calls. -/
theorem C37_total (a b ρ : ℝ) : ∃ v, ∀ fuel, 3 ≤ fuel → CBND fuel a b ρ = some v :=
  ⟨bvn a b ρ, fun fuel h => by
    obtain ⟨k, rfl⟩ := Nat.exists_eq_add_of_le' h
    exact CBND_eq k a b ρ⟩

/-- Three nested calls can be needed: with two the reduction of `(1, 1, 1/2)` would not end. -/
theorem C37_depth_sharp : CBND 2 1 1 (1 / 2) = none := by
  have h1 : cbndRho (1 / 2) = 1 / 2 := by
    rw [cbndRho, if_neg]; rw [abs_of_pos] <;> norm_num
  have e : (1 : ℝ) ^ 2 - 2 * (1 / 2) * 1 * 1 + 1 ^ 2 = 1 := by norm_num
  have h2 : cbndRho (-(1 / 2)) = -(1 / 2) := by rw [cbndRho_neg, h1]
  have h3 : CBND 1 1 0 (-(1 / 2)) = none := by
    rw [CBND, h2]; norm_num [CBND]
  rw [CBND, h1]
  simp only [e, npSign_of_pos one_pos, Real.sqrt_one]
  norm_num
  norm_num at h3
  rw [h3]

theorem C37_symmetric (fuel : ℕ) (h : 3 ≤ fuel) (a b ρ : ℝ) : CBND fuel a b ρ = CBND fuel b a ρ := by
  obtain ⟨k, rfl⟩ := Nat.exists_eq_add_of_le' h
  rw [CBND_eq, CBND_eq, bvn_symm]

/-- The complement law, for correlations strictly inside `(-1, 1)` and `b ≠ ρ a`. -/
theorem C37_complement_partial {a b ρ : ℝ} (hρ : |ρ| < 1) (hb : b ≠ ρ * a) (fuel : ℕ) (h : 3 ≤ fuel) :
    ∃ v w, CBND fuel a b ρ = some v ∧ CBND fuel a (-b) (-ρ) = some w ∧ v + w = CND a := by
  obtain ⟨k, rfl⟩ := Nat.exists_eq_add_of_le' h
  refine ⟨_, _, CBND_eq k _ _ _, CBND_eq k _ _ _, bvn_compl hρ.le fun e => absurd e ?_⟩
  rw [cbndRho, if_neg hρ.ne]
  exact hb

/-- The complement law at `ρ = ±1` (where the code moves `ρ` by `1e-12` towards zero). -/
theorem C37_complement_unit_partial {a b ρ : ℝ} (hρ : |ρ| = 1) (hb : b ≠ ρ * (1 - 1e-12) * a) (fuel : ℕ)
    (h : 3 ≤ fuel) :
    ∃ v w, CBND fuel a b ρ = some v ∧ CBND fuel a (-b) (-ρ) = some w ∧ v + w = CND a := by
  obtain ⟨k, rfl⟩ := Nat.exists_eq_add_of_le' h
  refine ⟨_, _, CBND_eq k _ _ _, CBND_eq k _ _ _, bvn_compl hρ.le fun e => absurd e ?_⟩
  have : cbndRho ρ = ρ * (1 - 1e-12) := by
    rw [cbndRho, if_pos hρ]
    rcases (abs_eq (by norm_num : (0 : ℝ) ≤ 1)).1 hρ with rfl | rfl <;> norm_num [npSign]
  rw [this]
  exact hb

/-- At the origin with zero correlation the law fails (by the quadrature error, about `3e-9`): the sum of the
two probabilities would be `1/2` only if `π` were rational. -/
theorem C37_complement_fails : ∃ v w, CBND 3 0 0 0 = some v ∧ CBND 3 0 (-0) (-0) = some w ∧ v + w ≠ CND 0 := by
  have h0 : cbndRho 0 = 0 := by simp [cbndRho]
  have e : CBND 3 0 0 0 = some (0.88622692334 ^ 2 / π) := by
    rw [CBND_base 2 ⟨le_rfl, le_rfl, le_rfl⟩, h0, quadr]
    simp only [cbndSum, cbndX, cbndY, List.zip_cons_cons, List.zip_nil_right, List.foldl_cons,
      List.foldl_nil, zero_div, zero_mul, mul_zero, add_zero, Real.exp_zero]
    norm_num
    ring
  refine ⟨_, _, e, by rw [neg_zero]; exact e, ?_⟩
  rw [CND_zero]
  intro h
  have hπ := Real.pi_pos
  have : π = ((4 * 0.88622692334 ^ 2 : ℚ) : ℝ) := by
    field_simp at h
    push_cast
    linarith
  exact irrational_pi ⟨_, this.symm⟩

/-- Non-vacuous: the RGW arguments are of this form, e.g. `a = 0.1`, `b = -0.2`, `ρ = -1/2`. -/
theorem C37_example : ∃ v w, CBND 3 0.1 (-0.2) (-(1 / 2)) = some v ∧ CBND 3 0.1 0.2 (1 / 2) = some w ∧
    v + w = CND 0.1 := by
  have := C37_complement_partial (a := 0.1) (b := -0.2) (ρ := -(1 / 2)) (by norm_num [abs_lt]) (by norm_num) 3 le_rfl
  simpa using this

end Verif.Props
