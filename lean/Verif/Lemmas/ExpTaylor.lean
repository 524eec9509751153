import Verif.Lemmas.PolyCheck
import Mathlib.Analysis.SpecialFunctions.ExpDeriv
import Mathlib.Analysis.Calculus.Deriv.MeanValue
import Mathlib.Algebra.BigOperators.Field
import Mathlib.Analysis.Calculus.Deriv.Pow
import Mathlib.Data.Nat.Cast.Field

/-! Taylor polynomials of `exp (-x)` as integer coefficient lists, with an explicit remainder. -/
namespace Verif.PolyCheck
open Real Finset

/-- Partial sums of the exponential series at `-x`. -/
noncomputable def tay (n : ℕ) (x : ℝ) : ℝ := ∑ j ∈ range n, (-x) ^ j / j.factorial

theorem hasDerivAt_tay (n : ℕ) (x : ℝ) : HasDerivAt (tay (n + 1)) (-tay n x) x := by
  induction n with
  | zero =>
    have : tay (0 + 1) = fun _ => (1 : ℝ) := by funext y; simp [tay]
    rw [this]
    simpa [tay] using hasDerivAt_const x (1 : ℝ)
  | succ n ih =>
    have e : tay (n + 1 + 1) = fun y => tay (n + 1) y + (-y) ^ (n + 1) / (n + 1).factorial := by
      funext y; simp only [tay]; rw [sum_range_succ _ (n + 1)]
    have e' : tay (n + 1) x = tay n x + (-x) ^ n / n.factorial := by
      simp only [tay]; rw [sum_range_succ]
    rw [e]
    have h := ((hasDerivAt_id x).neg.pow (n + 1)).div_const ((n + 1).factorial : ℝ)
    refine (ih.add h).congr_deriv ?_
    rw [e']
    have hf : ((n + 1).factorial : ℝ) = (n + 1) * n.factorial := by push_cast [Nat.factorial_succ]; ring
    have h0 : (n.factorial : ℝ) ≠ 0 := by positivity
    rw [hf]
    simp only [Pi.neg_apply, id, Nat.add_sub_cancel]
    push_cast
    field_simp
    ring

theorem tay_zero (n : ℕ) : tay (n + 1) 0 = 1 := by
  simp only [tay, neg_zero]
  rw [sum_eq_single 0]
  · simp
  · intro b _ hb
    simp [hb]
  · simp

theorem tay_alternates (n : ℕ) : ∀ x, 0 ≤ x →
    0 ≤ (-1) ^ n * (exp (-x) - tay n x) ∧ (-1) ^ n * (exp (-x) - tay n x) ≤ x ^ n / n.factorial := by
  induction n with
  | zero =>
    intro x hx
    simp only [pow_zero, one_mul, tay, range_zero, sum_empty, sub_zero, Nat.factorial_zero, Nat.cast_one, div_one]
    exact ⟨(exp_pos _).le, exp_le_one_iff.2 (by linarith)⟩
  | succ n ih =>
    let f : ℝ → ℝ := fun y => (-1) ^ (n + 1) * (exp (-y) - tay (n + 1) y)
    have hd : ∀ y, HasDerivAt f ((-1) ^ n * (exp (-y) - tay n y)) y := by
      intro y
      have h1 : HasDerivAt (fun y : ℝ => exp (-y)) (-exp (-y)) y := by
        simpa using (hasDerivAt_id y).neg.exp
      refine ((h1.sub (hasDerivAt_tay n y)).const_mul ((-1 : ℝ) ^ (n + 1))).congr_deriv ?_
      rw [pow_succ]; ring
    have hf0 : f 0 = 0 := by simp [f, tay_zero]
    have hm : MonotoneOn f (Set.Ici 0) := by
      refine monotoneOn_of_deriv_nonneg (convex_Ici 0) (fun y _ => (hd y).continuousAt.continuousWithinAt)
        (fun y _ => (hd y).differentiableAt.differentiableWithinAt) fun y hy => ?_
      rw [(hd y).deriv]
      exact (ih y (interior_subset hy)).1
    have hd2 : ∀ y : ℝ, HasDerivAt (fun y => y ^ (n + 1) / (n + 1).factorial - f y)
        (y ^ n / n.factorial - (-1) ^ n * (exp (-y) - tay n y)) y := by
      intro y
      refine (((hasDerivAt_pow (n + 1) y).div_const _).sub (hd y)).congr_deriv ?_
      congr 1
      have hf : ((n + 1).factorial : ℝ) = (n + 1) * n.factorial := by push_cast [Nat.factorial_succ]; ring
      have h0 : (n.factorial : ℝ) ≠ 0 := by positivity
      rw [hf]
      push_cast
      field_simp
    have hm2 : MonotoneOn (fun y => y ^ (n + 1) / (n + 1).factorial - f y) (Set.Ici 0) := by
      refine monotoneOn_of_deriv_nonneg (convex_Ici 0) (fun y _ => (hd2 y).continuousAt.continuousWithinAt)
        (fun y _ => (hd2 y).differentiableAt.differentiableWithinAt) fun y hy => ?_
      rw [(hd2 y).deriv]
      have := (ih y (interior_subset hy)).2
      linarith
    intro x hx
    have a1 := hm (Set.mem_Ici.2 le_rfl) (Set.mem_Ici.2 hx) hx
    have a2 := hm2 (Set.mem_Ici.2 le_rfl) (Set.mem_Ici.2 hx) hx
    simp only [hf0] at a1 a2
    refine ⟨a1, ?_⟩
    have : (0 : ℝ) ^ (n + 1) / (n + 1).factorial - 0 = 0 := by simp
    rw [this] at a2
    simp only [f] at a2
    linarith

theorem exp_neg_tay (n : ℕ) {x : ℝ} (hx : 0 ≤ x) : |exp (-x) - tay n x| ≤ x ^ n / n.factorial := by
  obtain ⟨h1, h2⟩ := tay_alternates n x hx
  have : |exp (-x) - tay n x| = |(-1) ^ n * (exp (-x) - tay n x)| := by
    rw [abs_mul, abs_pow, abs_neg, abs_one, one_pow, one_mul]
  rw [this, abs_of_nonneg h1]
  exact h2

/-- `Q ^ n * n!` times the Taylor polynomial of degree `n` of `exp (-(P / Q) v)`. -/
def tayL (P Q : ℤ) (n : ℕ) : List ℤ :=
  (List.range (n + 1)).map fun j => (-P) ^ j * Q ^ (n - j) * ((n.factorial / j.factorial : ℕ) : ℤ)

theorem ev_append (p : List ℤ) (a : ℤ) (x : ℝ) : ev (p ++ [a]) x = ev p x + a * x ^ p.length := by
  induction p with
  | nil => simp [ev]
  | cons b p ih => simp only [List.cons_append, ev, ih, List.length_cons]; ring

theorem ev_range (f : ℕ → ℤ) (n : ℕ) (x : ℝ) : ev ((List.range n).map f) x = ∑ j ∈ range n, (f j : ℝ) * x ^ j := by
  induction n with
  | zero => simp [ev]
  | succ n ih =>
    rw [List.range_succ, List.map_append, List.map_cons, List.map_nil, ev_append, ih, sum_range_succ]
    simp

theorem ev_tayL (P : ℤ) {Q : ℤ} (hQ : (Q : ℝ) ≠ 0) (n : ℕ) (v : ℝ) :
    ev (tayL P Q n) v = Q ^ n * n.factorial * tay (n + 1) (P / Q * v) := by
  rw [tayL, ev_range, tay, mul_sum]
  refine sum_congr rfl fun j hj => ?_
  have hj' : j ≤ n := Nat.lt_succ_iff.1 (mem_range.1 hj)
  have h1 : (((n.factorial / j.factorial : ℕ) : ℤ) : ℝ) = n.factorial / j.factorial := by
    rw [Int.cast_natCast, Nat.cast_div (Nat.factorial_dvd_factorial hj') (by positivity)]
  have h2 : (Q : ℝ) ^ n = Q ^ (n - j) * Q ^ j := by rw [← pow_add, Nat.sub_add_cancel hj']
  push_cast
  push_cast at h1
  rw [h1, h2, neg_pow (P / Q * v : ℝ), neg_pow (P : ℝ), mul_pow, div_pow]
  field_simp

/-- `p (D x)`. -/
def dil (D : ℤ) : List ℤ → List ℤ
  | [] => []
  | a :: p => a :: smul D (dil D p)

theorem ev_dil (D : ℤ) (p : List ℤ) (x : ℝ) : ev (dil D p) x = ev p (D * x) := by
  induction p with
  | nil => rfl
  | cons a p ih => simp only [dil, ev, ev_smul, ih]; ring

end Verif.PolyCheck
