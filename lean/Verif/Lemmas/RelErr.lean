import Verif.Spec.RoundingT
import Verif.Lemmas.Rounding

/-! Multiplicative errors: `Rel θ x y` says that `x = y exp δ` with `|δ| ≤ θ`. -/
namespace Verif
open Spec Real

/-- `x` is `y` times a factor between `exp (-θ)` and `exp θ`. -/
def Rel (θ x y : ℝ) : Prop := ∃ δ, |δ| ≤ θ ∧ x = y * exp δ

namespace Rel
variable {θ θ' x y x' y' : ℝ}

theorem rfl' : Rel 0 y y := ⟨0, by simp, by simp⟩

theorem mono (h : Rel θ x y) (hθ : θ ≤ θ') : Rel θ' x y := by
  obtain ⟨δ, a, c⟩ := h; exact ⟨δ, a.trans hθ, c⟩

theorem nonneg (h : Rel θ x y) : 0 ≤ θ := by obtain ⟨δ, a, _⟩ := h; exact (abs_nonneg _).trans a

theorem trans (h : Rel θ x y) (h' : Rel θ' y y') : Rel (θ + θ') x y' := by
  obtain ⟨δ, a, rfl⟩ := h
  obtain ⟨δ', a', rfl⟩ := h'
  exact ⟨δ' + δ, (abs_add_le _ _).trans (by linarith), by rw [exp_add]; ring⟩

theorem mul (h : Rel θ x y) (h' : Rel θ' x' y') : Rel (θ + θ') (x * x') (y * y') := by
  obtain ⟨δ, a, rfl⟩ := h
  obtain ⟨δ', a', rfl⟩ := h'
  exact ⟨δ + δ', (abs_add_le _ _).trans (by linarith), by rw [exp_add]; ring⟩

theorem inv (h : Rel θ x y) : Rel θ x⁻¹ y⁻¹ := by
  obtain ⟨δ, a, rfl⟩ := h
  exact ⟨-δ, by rwa [abs_neg], by rw [exp_neg, mul_inv]⟩

theorem div (h : Rel θ x y) (h' : Rel θ' x' y') : Rel (θ + θ') (x / x') (y / y') := by
  rw [div_eq_mul_inv, div_eq_mul_inv]; exact h.mul h'.inv

theorem neg (h : Rel θ x y) : Rel θ (-x) (-y) := by
  obtain ⟨δ, a, rfl⟩ := h
  exact ⟨δ, a, by ring⟩

theorem pow (h : Rel θ x y) (k : ℕ) : Rel (k * θ) (x ^ k) (y ^ k) := by
  obtain ⟨δ, a, rfl⟩ := h
  refine ⟨k * δ, ?_, by rw [mul_pow, ← exp_nat_mul]⟩
  rw [abs_mul, Nat.abs_cast]
  gcongr

theorem sqrt (h : Rel θ x y) : Rel (θ / 2) (√x) (√y) := by
  obtain ⟨δ, a, rfl⟩ := h
  refine ⟨δ / 2, ?_, ?_⟩
  · rw [abs_div, abs_of_pos (by norm_num : (0 : ℝ) < 2)]; linarith
  · rw [sqrt_mul' _ (exp_pos _).le]
    congr 1
    rw [show δ = δ / 2 + δ / 2 by ring, exp_add, sqrt_mul_self (exp_pos _).le]
    congr 1; ring

/-- A sum of nonnegative terms. -/
theorem add (h : Rel θ x y) (h' : Rel θ x' y') (hy : 0 ≤ y) (hy' : 0 ≤ y') :
    Rel θ (x + x') (y + y') := by
  obtain ⟨δ, a, rfl⟩ := h
  obtain ⟨δ', a', rfl⟩ := h'
  obtain ⟨l, u⟩ := abs_le.1 a
  obtain ⟨l', u'⟩ := abs_le.1 a'
  rcases (add_nonneg hy hy').eq_or_lt with h0 | hp
  · have hy0 : y = 0 := by linarith
    have hy0' : y' = 0 := by linarith
    subst hy0; subst hy0'
    exact ⟨0, by simpa using (abs_nonneg _).trans a, by simp⟩
  have hq : 0 < y * exp δ + y' * exp δ' := by
    rcases hy.eq_or_lt with h0 | h0
    · have : 0 < y' := by linarith
      rw [← h0]; simpa using mul_pos this (exp_pos δ')
    · exact add_pos_of_pos_of_nonneg (mul_pos h0 (exp_pos _)) (mul_nonneg hy' (exp_pos _).le)
  refine ⟨Real.log ((y * exp δ + y' * exp δ') / (y + y')), ?_, ?_⟩
  · rw [abs_le]
    constructor
    · rw [le_log_iff_exp_le (by positivity), le_div_iff₀ hp]
      have h1 : exp (-θ) ≤ exp δ := exp_le_exp.2 l
      have h2 : exp (-θ) ≤ exp δ' := exp_le_exp.2 l'
      nlinarith
    · rw [log_le_iff_le_exp (by positivity), div_le_iff₀ hp]
      have h1 : exp δ ≤ exp θ := exp_le_exp.2 u
      have h2 : exp δ' ≤ exp θ := exp_le_exp.2 u'
      nlinarith
  · rw [exp_log (by positivity)]; field_simp

theorem err (h : Rel θ x y) : Err θ x y |y| := by
  obtain ⟨δ, a, rfl⟩ := h
  refine ⟨?_, le_rfl⟩
  rw [show y * exp δ - y = (exp δ - 1) * y by ring, abs_mul]
  refine mul_le_mul_of_nonneg_right ?_ (abs_nonneg _)
  obtain ⟨l, u⟩ := abs_le.1 a
  have h1 : exp δ ≤ exp θ := exp_le_exp.2 u
  have h2 : exp (-θ) ≤ exp δ := exp_le_exp.2 l
  have h3 : 2 ≤ exp θ + exp (-θ) := by
    have := add_one_le_exp θ
    have hp := exp_pos θ
    rw [exp_neg]
    have h6 : 0 ≤ (exp θ - 1) ^ 2 / exp θ := by positivity
    have h7 : (exp θ - 1) ^ 2 / exp θ = exp θ + (exp θ)⁻¹ - 2 := by field_simp; ring
    linarith
  rw [abs_le]; constructor <;> linarith

/-- A relative rounding error. -/
theorem of_round {e z x : ℝ} (he : 0 ≤ e) (he1 : e < 1) (hz : |z - x| ≤ e * |x|) :
    Rel (-Real.log (1 - e)) z x := by
  rcases eq_or_ne x 0 with rfl | hx
  · have : z = 0 := by simpa using hz
    subst this
    refine ⟨0, ?_, by simp⟩
    have := log_nonpos (by linarith) (by linarith : 1 - e ≤ 1)
    simpa using this
  have h1 : |z / x - 1| ≤ e := by
    rw [show z / x - 1 = (z - x) / x by field_simp, abs_div, div_le_iff₀ (abs_pos.2 hx)]
    exact hz
  obtain ⟨l, u⟩ := abs_le.1 h1
  have hp : 0 < z / x := by linarith
  refine ⟨Real.log (z / x), ?_, by rw [exp_log hp]; field_simp⟩
  rw [abs_le]
  constructor
  · rw [neg_neg]; exact log_le_log (by linarith) (by linarith)
  · rw [← log_inv]
    refine log_le_log hp ?_
    rw [le_inv_comm₀ hp (by linarith), ← one_div, le_div_iff₀ hp]
    nlinarith

/-- Rounding after the operation. -/
theorem round {e z : ℝ} (h : Rel θ x y) (he : 0 ≤ e) (he1 : e < 1) (hz : |z - x| ≤ e * |x|) :
    Rel (θ - Real.log (1 - e)) z y := by
  have := (of_round he he1 hz).trans h
  exact this.mono (by linarith)

end Rel

namespace Err
variable {θ x y B : ℝ}

/-- Rounding, with the level used for multiplicative errors. -/
theorem round' {e z : ℝ} (h : Err θ x y B) (he : 0 ≤ e) (he1 : e < 1) (hz : |z - x| ≤ e * |x|) :
    Err (θ - Real.log (1 - e)) z y B := by
  refine (h.round he hz).mono ?_
  have : log (1 + e) ≤ -log (1 - e) := by
    rw [← log_inv]
    refine log_le_log (by linarith) ?_
    rw [le_inv_comm₀ (by linarith) (by linarith), ← one_div, le_div_iff₀ (by linarith)]
    nlinarith
  linarith

end Err

/-- `exp (-u)` for a nonnegative argument known up to a factor: the absolute error does not grow with the
argument. -/
theorem err_exp_neg {θ u v : ℝ} (hv : 0 ≤ v) (h : Rel θ u v) : Err (2 * θ) (exp (-u)) (exp (-v)) 1 := by
  have h0 := h.nonneg
  obtain ⟨δ, a, rfl⟩ := h
  obtain ⟨l, u⟩ := abs_le.1 a
  refine ⟨?_, by rw [abs_of_pos (exp_pos _)]; exact exp_le_one_iff.2 (by linarith)⟩
  -- both arguments lie between `v e^{-θ}` and `v e^θ`
  have e1 : exp δ ≤ exp θ := exp_le_exp.2 u
  have e2 : exp (-θ) ≤ exp δ := exp_le_exp.2 l
  have e3 : exp (-θ) ≤ 1 := exp_le_one_iff.2 (by linarith)
  have e4 : 1 ≤ exp θ := one_le_exp h0
  set w := v * exp (-θ) with hw
  have hw0 : 0 ≤ w := mul_nonneg hv (exp_pos _).le
  have hww : v * exp θ = w * exp (2 * θ) := by
    rw [hw, mul_assoc, ← exp_add]; congr 2; ring
  have b1 : w ≤ v * exp δ := mul_le_mul_of_nonneg_left e2 hv
  have b2 : v * exp δ ≤ w * exp (2 * θ) := by rw [← hww]; exact mul_le_mul_of_nonneg_left e1 hv
  have b3 : w ≤ v := by rw [hw]; nlinarith
  have b4 : v ≤ w * exp (2 * θ) := by rw [← hww]; nlinarith
  have key : exp (-w) - exp (-(w * exp (2 * θ))) ≤ exp (2 * θ) - 1 := by
    -- `1 - exp (-(w (E - 1))) ≤ w (E - 1)` and `w exp (-w) ≤ 1`
    have c1 := add_one_le_exp (-(w * exp (2 * θ)) + w)
    have c2 : exp (-(w * exp (2 * θ))) = exp (-w) * exp (-(w * exp (2 * θ)) + w) := by
      rw [← exp_add]; congr 1; ring
    have c3 : w * exp (-w) ≤ 1 := by
      rw [exp_neg, ← div_eq_mul_inv, div_le_one (exp_pos _)]
      linarith [add_one_le_exp w]
    have c4 : 0 ≤ exp (2 * θ) - 1 := by linarith [one_le_exp (by linarith : 0 ≤ 2 * θ)]
    rw [c2]
    have c5 := mul_le_mul_of_nonneg_left c1 (exp_pos (-w)).le
    nlinarith
  rw [mul_one, abs_le]
  have d1 : exp (-(v * exp δ)) ≤ exp (-w) := exp_le_exp.2 (by linarith)
  have d2 : exp (-(w * exp (2 * θ))) ≤ exp (-(v * exp δ)) := exp_le_exp.2 (by linarith)
  have d3 : exp (-v) ≤ exp (-w) := exp_le_exp.2 (by linarith)
  have d4 : exp (-(w * exp (2 * θ))) ≤ exp (-v) := exp_le_exp.2 (by linarith)
  constructor <;> linarith

end Verif
