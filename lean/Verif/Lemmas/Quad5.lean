import Verif.Lemmas.ExpTaylor
import Verif.Lemmas.CNDError
import Mathlib.Analysis.Real.Pi.Bounds
import Mathlib.Analysis.Complex.ExponentialBounds

/-!
The five-point quadrature of base.py:87-88 applied to `exp (-2 c x)`: a uniform bound for
`exp (-c²) ∑ A_i exp (-2 c B_i) - ∫_c^∞ exp (-s²) ds` on `c ≥ 0`.
-/
namespace Verif.Quad5
open Real Spec PolyCheck Filter Topology Set

/-- One node: `A exp (-2 B c)`, with `A = a/10^11`, `B = b/10^8`. -/
noncomputable def nd (a b : ℤ) (c : ℝ) : ℝ := a / 10 ^ 11 * exp (-(2 * (b / 10 ^ 8) * c))

/-- `2 A (B + c) exp (-2 B c)`. -/
noncomputable def nr (a b : ℤ) (c : ℝ) : ℝ := 2 * (b / 10 ^ 8 + c) * nd a b c

/-- The quadrature sum. -/
noncomputable def S (c : ℝ) : ℝ :=
  nd 24840615000 10024215 c + nd 39233107000 48281397 c + nd 21141819000 106094980 c + nd 3324666000 177972940 c
    + nd 82485334 266976040 c

/-- The residual `exp (c²) G'`. -/
noncomputable def R (c : ℝ) : ℝ :=
  1 - (nr 24840615000 10024215 c + nr 39233107000 48281397 c + nr 21141819000 106094980 c
    + nr 3324666000 177972940 c + nr 82485334 266976040 c)

/-- `∫_c^∞ exp (-s²) ds`. -/
noncomputable def T (c : ℝ) : ℝ := √π * Φ (-(√2 * c))

/-- The error of the quadrature, damped. -/
noncomputable def G (c : ℝ) : ℝ := exp (-c ^ 2) * S c - T c

theorem hasDerivAt_nd (a b : ℤ) (c : ℝ) : HasDerivAt (nd a b) (-(2 * (b / 10 ^ 8)) * nd a b c) c := by
  unfold nd
  have h : HasDerivAt (fun c : ℝ => -(2 * ((b : ℝ) / 10 ^ 8) * c)) (-(2 * ((b : ℝ) / 10 ^ 8))) c := by
    have := ((hasDerivAt_id c).const_mul (2 * ((b : ℝ) / 10 ^ 8))).neg
    rw [mul_one] at this
    exact this
  refine (h.exp.const_mul _).congr_deriv ?_
  ring

theorem hasDerivAt_T (c : ℝ) : HasDerivAt T (-exp (-c ^ 2)) c := by
  have h : HasDerivAt (fun c : ℝ => -(√2 * c)) (-√2) c := by
    have := ((hasDerivAt_id c).const_mul √2).neg
    rw [mul_one] at this
    exact this
  have h2 := ((hasDerivAt_Φ (-(√2 * c))).comp c h).const_mul √π
  refine h2.congr_deriv ?_
  rw [φ, sqrt_mul (by norm_num)]
  have e : -(-(√2 * c)) ^ 2 / 2 = -c ^ 2 := by
    have := sq_sqrt (show (0 : ℝ) ≤ 2 by norm_num)
    linear_combination -(c ^ 2) / 2 * this
  rw [e]
  have h1 : √2 ≠ 0 := by positivity
  have h2 : √π ≠ 0 := by positivity
  field_simp

theorem hasDerivAt_G (c : ℝ) : HasDerivAt G (exp (-c ^ 2) * R c) c := by
  have h1 : HasDerivAt (fun c : ℝ => exp (-c ^ 2)) (exp (-c ^ 2) * (-(2 * c))) c := by
    have := (hasDerivAt_pow 2 c).neg.exp
    simpa using this
  have h2 := ((((hasDerivAt_nd 24840615000 10024215 c).add (hasDerivAt_nd 39233107000 48281397 c)).add
    (hasDerivAt_nd 21141819000 106094980 c)).add (hasDerivAt_nd 3324666000 177972940 c)).add
    (hasDerivAt_nd 82485334 266976040 c)
  have hS : HasDerivAt S _ c := h2
  refine ((h1.mul hS).sub (hasDerivAt_T c)).congr_deriv ?_
  simp only [R, nr, S]
  ring

/-! ### Polynomial enclosures, in the variable `v = 10 c` -/

abbrev scl : ℤ := (10 ^ 9) ^ 46 * (Nat.factorial 46 : ℕ)

/-- `10^19 * scl` times the Taylor approximation of `nr a b (v / 10)`. -/
def term (a b : ℤ) : List ℤ := smul (2 * a) (mul [b, 10 ^ 7] (tayL (2 * b) (10 ^ 9) 46))

theorem term_bound (a b : ℤ) (ha : 0 ≤ a) (hb : 0 ≤ b) {c : ℝ} (hc : 0 ≤ c) (hx : 2 * (b / 10 ^ 8) * c ≤ 10.8) :
    |nr a b c - ev (term a b) (10 * c) / (10 ^ 19 * scl)| ≤ 2 * (b / 10 ^ 8 + c) * (a / 10 ^ 11) * 2e-11 := by
  have hx0 : (0 : ℝ) ≤ 2 * (b / 10 ^ 8) * c := by
    have : (0 : ℝ) ≤ b := by exact_mod_cast hb
    positivity
  have h := exp_neg_tay 47 hx0
  have hrem : (2 * ((b : ℝ) / 10 ^ 8) * c) ^ 47 / (Nat.factorial 47 : ℕ) ≤ 2e-11 := by
    calc (2 * ((b : ℝ) / 10 ^ 8) * c) ^ 47 / (Nat.factorial 47 : ℕ) ≤ 10.8 ^ 47 / (Nat.factorial 47 : ℕ) := by gcongr
      _ ≤ 2e-11 := by norm_num [Nat.factorial]
  have he : ev (term a b) (10 * c) / (10 ^ 19 * scl) = 2 * (b / 10 ^ 8 + c) * (a / 10 ^ 11) * tay 47 (2 * (b / 10 ^ 8) * c) := by
    rw [term, ev_smul, ev_mul, ev_tayL _ (by norm_num)]
    simp only [ev]
    have e : ((2 * b : ℤ) : ℝ) / ((10 ^ 9 : ℤ) : ℝ) * (10 * c) = 2 * (b / 10 ^ 8) * c := by push_cast; ring
    rw [e]
    generalize tay (46 + 1) (2 * (b / 10 ^ 8) * c) = τ
    push_cast
    have hf : ((Nat.factorial 46 : ℕ) : ℝ) ≠ 0 := by positivity
    field_simp
    ring
  rw [he, nr, nd]
  have hpos : (0 : ℝ) ≤ 2 * (b / 10 ^ 8 + c) * (a / 10 ^ 11) := by
    have : (0 : ℝ) ≤ b := by exact_mod_cast hb
    have : (0 : ℝ) ≤ a := by exact_mod_cast ha
    positivity
  rw [show 2 * ((b : ℝ) / 10 ^ 8 + c) * (a / 10 ^ 11 * exp (-(2 * (b / 10 ^ 8) * c)))
    - 2 * (b / 10 ^ 8 + c) * (a / 10 ^ 11) * tay 47 (2 * (b / 10 ^ 8) * c)
    = 2 * (b / 10 ^ 8 + c) * (a / 10 ^ 11) * (exp (-(2 * (b / 10 ^ 8) * c)) - tay 47 (2 * (b / 10 ^ 8) * c)) by ring,
    abs_mul, abs_of_nonneg hpos]
  exact mul_le_mul_of_nonneg_left (h.trans hrem) hpos

/-- The residual with three, four, five nodes. -/
def r3 : List ℤ := add [10 ^ 19 * scl] (smul (-1) (add (term 24840615000 10024215) (add (term 39233107000 48281397)
  (term 21141819000 106094980))))
def r4 : List ℤ := add r3 (smul (-1) (term 3324666000 177972940))
def r5 : List ℤ := add r4 (smul (-1) (term 82485334 266976040))

/-- Majorant of `-G'`, in `u = c / 1.9`, scaled by `10^12`; `qInt` is its primitive divided by `u`. -/
def qInt : List ℤ := [50722, -795460, 9784208, -48168374, 107937615, -102763386, 34545254]
def qW : List ℤ := derivFrom 1 qInt
/-- `100^12 * 12!` times a partial sum of `exp (c²)`. -/
def sqE : List ℤ := (List.range 13).flatMap fun k =>
  if k = 0 then [100 ^ 12 * (Nat.factorial 12 : ℕ)]
  else [0, 361 ^ k * 100 ^ (12 - k) * ((Nat.factorial 12 / Nat.factorial k : ℕ) : ℤ)]

theorem check_W : check 12 qW = true := by decide +kernel
theorem check_1 : check 12 (add (smul (10 ^ 7 * scl) (mul qW sqE))
    (smul (100 ^ 12 * (Nat.factorial 12 : ℕ)) (add (dil 19 r5) [-(10 ^ 9 * scl)]))) = true := by decide +kernel
theorem check_2 : check 12 (dil 11 (shift 19 (add r4 [-(4 * 10 ^ 12 * scl) - 3 * 10 ^ 9 * scl]))) = true := by
  decide +kernel
theorem check_3 : check 12 (dil 12 (shift 30 (add r3 [-(2 * 10 ^ 14 * scl) - 3 * 10 ^ 9 * scl]))) = true := by
  decide +kernel

theorem scl_pos : (0 : ℝ) < 10 ^ 19 * scl := by
  have : (0 : ℝ) < ((Nat.factorial 46 : ℕ) : ℝ) := by exact_mod_cast Nat.factorial_pos 46
  push_cast
  positivity

theorem nr_nonneg {a b : ℤ} (ha : 0 ≤ a) (hb : 0 ≤ b) {c : ℝ} (hc : 0 ≤ c) : 0 ≤ nr a b c := by
  have : (0 : ℝ) ≤ b := by exact_mod_cast hb
  have : (0 : ℝ) ≤ a := by exact_mod_cast ha
  unfold nr nd
  positivity

/-- A node's contribution decreases once `2 B (B + c) ≥ 1`. -/
theorem nr_le {a b : ℤ} (ha : 0 ≤ a) {c0 c : ℝ} (hpos : 0 < (b : ℝ) / 10 ^ 8 + c0)
    (h1 : 1 ≤ 2 * (b / 10 ^ 8) * ((b : ℝ) / 10 ^ 8 + c0)) (hc : c0 ≤ c) : nr a b c ≤ nr a b c0 := by
  have ha' : (0 : ℝ) ≤ a := by exact_mod_cast ha
  unfold nr nd
  generalize (b : ℝ) / 10 ^ 8 = B at *
  have e1 : B + c ≤ (B + c0) * exp (2 * B * (c - c0)) := by
    have k := add_one_le_exp (2 * B * (c - c0))
    have : B + c0 + (c - c0) ≤ (B + c0) * (2 * B * (c - c0) + 1) := by nlinarith
    nlinarith
  have e2 : exp (-(2 * B * c0)) = exp (-(2 * B * c)) * exp (2 * B * (c - c0)) := by
    rw [← exp_add]; congr 1; ring
  rw [e2]
  calc 2 * (B + c) * (a / 10 ^ 11 * exp (-(2 * B * c)))
      ≤ 2 * ((B + c0) * exp (2 * B * (c - c0))) * (a / 10 ^ 11 * exp (-(2 * B * c))) := by gcongr
    _ = _ := by ring

theorem exp_neg_nat (k : ℕ) : exp (-(k : ℝ)) ≤ (10 / 27) ^ k := by
  have h : exp (-1) ≤ 10 / 27 := by
    rw [exp_neg, inv_le_comm₀ (exp_pos _) (by norm_num)]
    have := exp_one_gt_d9
    norm_num
    linarith
  calc exp (-(k : ℝ)) = exp (-1) ^ k := by rw [← exp_nat_mul]; congr 1; ring
    _ ≤ _ := pow_le_pow_left₀ (exp_pos _).le h k

theorem nr5_small {c : ℝ} (hc : 1.9 ≤ c) : nr 82485334 266976040 c ≤ 4e-7 := by
  refine (nr_le (by norm_num) (c0 := 1.9) (by norm_num) (by norm_num) hc).trans ?_
  have h1 : exp (-(2 * ((266976040 : ℤ) / 10 ^ 8) * 1.9)) ≤ (10 / 27 : ℝ) ^ 10 := by
    refine le_trans (exp_le_exp.2 ?_) (exp_neg_nat 10)
    norm_num
  unfold nr nd
  push_cast at h1 ⊢
  norm_num at h1 ⊢
  linarith

theorem nr4_small {c : ℝ} (hc : 3 ≤ c) : nr 3324666000 177972940 c ≤ 1.96e-5 := by
  refine (nr_le (by norm_num) (c0 := 3) (by norm_num) (by norm_num) hc).trans ?_
  have h1 : exp (-(2 * ((177972940 : ℤ) / 10 ^ 8) * 3)) ≤ (10 / 27 : ℝ) ^ 10 := by
    refine le_trans (exp_le_exp.2 ?_) (exp_neg_nat 10)
    norm_num
  unfold nr nd
  push_cast at h1 ⊢
  norm_num at h1 ⊢
  linarith

theorem r3_near {c : ℝ} (h0 : 0 ≤ c) (h1 : c ≤ 4.2) :
    |1 - (nr 24840615000 10024215 c + nr 39233107000 48281397 c + nr 21141819000 106094980 c)
      - ev r3 (10 * c) / (10 ^ 19 * scl)| ≤ (0.5 * (0.11 + c) + 0.79 * (0.49 + c) + 0.43 * (1.07 + c)) * 2e-11 := by
  have t1 := term_bound 24840615000 10024215 (by norm_num) (by norm_num) h0 (by norm_num; linarith)
  have t2 := term_bound 39233107000 48281397 (by norm_num) (by norm_num) h0 (by norm_num; linarith)
  have t3 := term_bound 21141819000 106094980 (by norm_num) (by norm_num) h0 (by norm_num; linarith)
  have e : ev r3 (10 * c) / (10 ^ 19 * scl) = 1 - (ev (term 24840615000 10024215) (10 * c) / (10 ^ 19 * scl)
      + ev (term 39233107000 48281397) (10 * c) / (10 ^ 19 * scl)
      + ev (term 21141819000 106094980) (10 * c) / (10 ^ 19 * scl)) := by
    rw [r3, ev_add, ev_smul, ev_add, ev_add]
    have hs : (10 ^ 19 * (scl : ℝ)) ≠ 0 := scl_pos.ne'
    have h1 : ev [10 ^ 19 * scl] (10 * c) = 10 ^ 19 * (scl : ℝ) := by
      simp only [ev]; push_cast; ring
    rw [h1]
    generalize (10 ^ 19 * (scl : ℝ)) = w at *
    field_simp
    push_cast
    ring
  rw [e]
  rw [abs_le] at t1 t2 t3 ⊢
  push_cast at t1 t2 t3
  norm_num at t1 t2 t3 ⊢
  constructor <;> nlinarith

end Verif.Quad5
