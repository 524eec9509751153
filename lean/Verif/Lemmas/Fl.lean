import Verif.Model.BAWFloat

/-! Rules for computing with `Fl`. -/
namespace Verif.Fl

theorem num_add (x y : ℝ) : num x + num y = num (x + y) := rfl
theorem num_neg (x : ℝ) : -num x = num (-x) := rfl
theorem num_sub (x y : ℝ) : num x - num y = num (x - y) := by rw [sub_eq_add_neg]; rfl
theorem num_mul (x y : ℝ) : num x * num y = num (x * y) := rfl
theorem num_div (x : ℝ) {y : ℝ} (h : y ≠ 0) : num x / num y = num (x / y) := by
  show num x * Fl.inv (num y) = _
  rw [Fl.inv, if_neg h, div_eq_mul_inv]; rfl
theorem ofNat_eq (n : ℕ) [n.AtLeastTwo] : (OfNat.ofNat n : Fl) = num (OfNat.ofNat n : ℝ) := rfl
theorem zero_eq : (0 : Fl) = num 0 := by show num ((0 : ℕ) : ℝ) = _; simp
theorem one_eq : (1 : Fl) = num 1 := by show num ((1 : ℕ) : ℝ) = _; simp
theorem two_eq : (2 : Fl) = num 2 := by show num ((2 : ℕ) : ℝ) = _; simp
theorem four_eq : (4 : Fl) = num 4 := by show num ((4 : ℕ) : ℝ) = _; simp
theorem num_pow (x : ℝ) (k : ℕ) : num x ^ k = num (x ^ k) := by
  show npow (num x) k = _
  induction k with
  | zero => rw [npow, pow_zero, one_eq]
  | succ k ih => rw [npow, ih, num_mul, pow_succ]
theorem num_abs (x : ℝ) : abs (num x) = num |x| := rfl
theorem num_sign (x : ℝ) : sign (num x) = num (npSign x) := rfl
theorem num_exp (x : ℝ) : exp (num x) = num (Real.exp x) := rfl
theorem num_log {x : ℝ} (h : 0 < x) : log (num x) = num (Real.log x) := if_pos h
theorem num_sqrt {x : ℝ} (h : 0 ≤ x) : sqrt (num x) = num (Real.sqrt x) := if_pos h
theorem log_neg {x : ℝ} (h : x < 0) : log (num x) = nan := by
  rw [log, if_neg h.not_gt, if_neg h.ne]
theorem log_zero : log (num 0) = ninf := by simp [log]
theorem sqrt_neg {x : ℝ} (h : x < 0) : sqrt (num x) = nan := if_neg h.not_ge
theorem num_rpow {x : ℝ} (h : 0 < x) (y : ℝ) : rpow (num x) (num y) = num (x ^ y) := if_pos h
theorem num_inj {x y : ℝ} : num x = num y ↔ x = y := ⟨fun h => by injection h, fun h => h ▸ rfl⟩
theorem lt_num {x y : ℝ} : lt (num x) (num y) ↔ x < y := Iff.rfl

theorem nan_add (x : Fl) : nan + x = nan := by cases x <;> rfl
theorem add_nan (x : Fl) : x + nan = nan := by cases x <;> rfl
theorem neg_nan : -nan = nan := rfl
theorem nan_sub (x : Fl) : nan - x = nan := nan_add _
theorem sub_nan (x : Fl) : x - nan = nan := add_nan x
theorem nan_mul (x : Fl) : nan * x = nan := by cases x <;> rfl
theorem mul_nan (x : Fl) : x * nan = nan := by cases x <;> rfl
theorem nan_div (x : Fl) : nan / x = nan := nan_mul _
theorem div_nan (x : Fl) : x / nan = nan := mul_nan x
theorem nan_pow (k : ℕ) : nan ^ (k + 1) = nan := by
  show npow nan (k + 1) = _
  rw [npow, mul_nan]
theorem abs_nan : abs nan = nan := rfl
theorem exp_nan : exp nan = nan := rfl
theorem log_nan : log nan = nan := rfl
theorem sqrt_nan : sqrt nan = nan := rfl
theorem sign_nan : sign nan = nan := rfl
theorem not_lt_nan (x : Fl) : ¬ lt x nan := by cases x <;> exact id
theorem not_nan_lt (x : Fl) : ¬ lt nan x := by cases x <;> exact id

theorem CND_num (x : ℝ) : CND (num x) = num (Verif.CND x) := by
  have h : (1 : ℝ) + 0.2316419 * |x| ≠ 0 := by positivity
  have h2 : Real.sqrt (8 * Real.arctan 1) ≠ 0 := by
    rw [Real.arctan_one]; exact (Real.sqrt_pos.2 (by positivity)).ne'
  simp only [CND, NDF, one_eq, two_eq, num_abs, num_mul, num_add, num_neg, num_div _ h, num_pow, num_exp,
    num_div _ (two_ne_zero : (2 : ℝ) ≠ 0), num_div _ h2, num_sub, num_sign]
  rfl

theorem CND_nan : CND nan = nan := by
  simp only [CND, sign_nan, mul_nan, sub_nan]

theorem CND_ninf : CND ninf = num 0 := by
  have e1 : abs ninf = pinf := rfl
  have e2 : num 0.2316419 * pinf = pinf := by
    show signed _ = _
    rw [signed, if_pos (by norm_num)]
  have e3 : num 1 + pinf = pinf := rfl
  have e4 : num 1 / pinf = num 0 := by
    show num 1 * num 0 = _
    rw [num_mul, mul_zero]
  have e5 : NDF ninf = num 0 := by
    have : -ninf * ninf / 2 = ninf := by
      show Fl.mul ninf (Fl.inv 2) = _
      rw [two_eq, Fl.inv, if_neg two_ne_zero, Fl.mul, signed, if_neg (by norm_num), if_pos (by norm_num)]
    rw [NDF, this]
    have h2 : Real.sqrt (8 * Real.arctan 1) ≠ 0 := by
      rw [Real.arctan_one]; exact (Real.sqrt_pos.2 (by positivity)).ne'
    rw [show exp ninf = (0 : Fl) from rfl, zero_eq, num_div _ h2, zero_div]
  simp only [CND, e1, e2, e3, e4, e5, num_pow, num_mul, num_add, num_sub, show sign ninf = (-1 : Fl) from rfl, one_eq,
    num_neg]
  norm_num

theorem CND_pinf : CND pinf = num 1 := by
  have e1 : abs pinf = pinf := rfl
  have e2 : num 0.2316419 * pinf = pinf := by
    show signed _ = _
    rw [signed, if_pos (by norm_num)]
  have e3 : num 1 + pinf = pinf := rfl
  have e4 : num 1 / pinf = num 0 := by
    show num 1 * num 0 = _
    rw [num_mul, mul_zero]
  have e5 : NDF pinf = num 0 := by
    have : -pinf * pinf / 2 = ninf := by
      show Fl.mul ninf (Fl.inv 2) = _
      rw [two_eq, Fl.inv, if_neg two_ne_zero, Fl.mul, signed, if_neg (by norm_num), if_pos (by norm_num)]
    rw [NDF, this]
    have h2 : Real.sqrt (8 * Real.arctan 1) ≠ 0 := by
      rw [Real.arctan_one]; exact (Real.sqrt_pos.2 (by positivity)).ne'
    rw [show exp ninf = (0 : Fl) from rfl, zero_eq, num_div _ h2, zero_div]
  simp only [CND, e1, e2, e3, e4, e5, num_pow, num_mul, num_add, num_sub, show sign pinf = (1 : Fl) from rfl, one_eq,
    num_neg]
  norm_num

end Verif.Fl
