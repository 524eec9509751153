import Verif.Lemmas.GBSObj
import Verif.Spec.MiltersenSchwartz
import Mathlib.Analysis.SpecialFunctions.Integrals.Basic

/-!
Miltersen–Schwartz: the integrals in closed form, and the attributes of a numeric object.
-/
set_option linter.unusedSimpArgs false
namespace Verif.Props
open Verif Verif.Spec Real

/-- Keyword arguments of a `MiltersenSchwartzOption`. -/
def msKw (Pt FT K t T σS σE σF ρSE ρSF ρEF κE κF : ℝ) : Dict :=
  [("Pt", .num Pt), ("FT", .num FT), ("K", .num K), ("t", .num t), ("T", .num T), ("sigmaS", .num σS),
   ("sigmaE", .num σE), ("sigmaF", .num σF), ("rhoSE", .num ρSE), ("rhoSF", .num ρSF),
   ("rhoEF", .num ρEF), ("KappaE", .num κE), ("KappaF", .num κF)]

section calculus
variable {κ κE κF : ℝ}

theorem hasDerivAt_expc (c u : ℝ) : HasDerivAt (fun v => exp (c * v)) (exp (c * u) * c) u := by
  have h1 : HasDerivAt (fun v => c * v) c u := by simpa using (hasDerivAt_id u).const_mul c
  exact h1.exp

theorem loading_eq (hκ : κ ≠ 0) (s : ℝ) : MS.loading κ s = (1 - exp (-κ * s)) / κ := by
  unfold MS.loading
  have h : ∀ v ∈ Set.uIcc (0:ℝ) s, HasDerivAt (fun v => exp (-κ * v) / (-κ)) (exp (-κ * v)) v := by
    intro v _
    exact ((hasDerivAt_expc (-κ) v).div_const (-κ)).congr_deriv (by field_simp)
  rw [intervalIntegral.integral_eq_sub_of_hasDerivAt h
    ((by fun_prop : Continuous fun v => exp (-κ * v)).intervalIntegrable _ _)]
  simp
  field_simp
  ring

theorem exp_split (κ T u : ℝ) : exp (-κ * (T - u)) = exp (-κ * T) * exp (κ * u) := by
  rw [← exp_add]; ring_nf

/-- The number computed into `_vz` before the square root. -/
noncomputable def vzNum (σS σE σF ρSE ρSF ρEF κE κF t T : ℝ) : ℝ :=
  σS ^ 2 * t + 2 * σS * (σF * ρSF * 1 / κF * (t - 1 / κF * exp (-κF * T) * (exp (κF * t) - 1))
    - σE * ρSE * 1 / κE * (t - 1 / κE * exp (-κE * T) * (exp (κE * t) - 1)))
    + σE ^ 2 * 1 / κE ^ 2 * (t + 1 / (2 * κE) * exp (-2 * κE * T) * (exp (2 * κE * t) - 1)
      - 2 * 1 / κE * exp (-κE * T) * (exp (κE * t) - 1))
    + σF ^ 2 * 1 / κF ^ 2 * (t + 1 / (2 * κF) * exp (-2 * κF * T) * (exp (2 * κF * t) - 1)
      - 2 * 1 / κF * exp (-κF * T) * (exp (κF * t) - 1))
    - 2 * σE * σF * ρEF * 1 / κE * 1 / κF * (t - 1 / κE * exp (-κE * T) * (exp (κE * t) - 1)
      - 1 / κF * exp (-κF * T) * (exp (κF * t) - 1)
      + 1 / (κE + κF) * exp (-(κE + κF) * T) * (exp ((κE + κF) * t) - 1))

/-- The number computed into `_vxz`. -/
noncomputable def vxzNum (σS σE σF ρSF ρEF κE κF t T : ℝ) : ℝ :=
  σF * 1 / κF * (σS * ρSF * (t - 1 / κF * (1 - exp (-κF * t)))
    + σF * 1 / κF * (t - 1 / κF * exp (-κF * T) * (exp (κF * t) - 1) - 1 / κF * (1 - exp (-κF * t))
      + 1 / (2 * κF) * exp (-κF * T) * (exp (κF * t) - exp (-κF * t)))
    - σE * ρEF * 1 / κE * (t - 1 / κE * exp (-κE * T) * (exp (κE * t) - 1)
      - 1 / κF * (1 - exp (-κF * t))
      + 1 / (κE + κF) * exp (-κE * T) * (exp (κE * t) - exp (-κF * t))))

variable (hE : κE ≠ 0) (hF : κF ≠ 0) (hEF : κE + κF ≠ 0) (σS σE σF ρSE ρSF ρEF t T : ℝ)
include hE hF hEF

theorem variance_eq : MS.variance σS σE σF ρSE ρSF ρEF κE κF t T
    = vzNum σS σE σF ρSE ρSF ρEF κE κF t T := by
  have hd : ∀ u ∈ Set.uIcc (0:ℝ) t, HasDerivAt (fun u => vzNum σS σE σF ρSE ρSF ρEF κE κF u T)
      (MS.corr ρSE ρSF ρEF (MS.futures σS σE σF κE κF T u) (MS.futures σS σE σF κE κF T u)) u := by
    intro u _
    have i1 := hasDerivAt_id u
    have eE := ((hasDerivAt_expc κE u).sub_const 1)
    have eF := ((hasDerivAt_expc κF u).sub_const 1)
    have eE2 := ((hasDerivAt_expc (2 * κE) u).sub_const 1)
    have eF2 := ((hasDerivAt_expc (2 * κF) u).sub_const 1)
    have eEF := ((hasDerivAt_expc (κE + κF) u).sub_const 1)
    have h := (((((i1.const_mul (σS ^ 2)).add
      ((((i1.sub (eF.const_mul (1 / κF * exp (-κF * T)))).const_mul (σF * ρSF * 1 / κF)).sub
        ((i1.sub (eE.const_mul (1 / κE * exp (-κE * T)))).const_mul (σE * ρSE * 1 / κE))).const_mul
          (2 * σS))).add
      (((i1.add (eE2.const_mul (1 / (2 * κE) * exp (-2 * κE * T)))).sub
        (eE.const_mul (2 * 1 / κE * exp (-κE * T)))).const_mul (σE ^ 2 * 1 / κE ^ 2))).add
      (((i1.add (eF2.const_mul (1 / (2 * κF) * exp (-2 * κF * T)))).sub
        (eF.const_mul (2 * 1 / κF * exp (-κF * T)))).const_mul (σF ^ 2 * 1 / κF ^ 2))).sub
      (((((i1.sub (eE.const_mul (1 / κE * exp (-κE * T)))).sub
        (eF.const_mul (1 / κF * exp (-κF * T)))).add
        (eEF.const_mul (1 / (κE + κF) * exp (-(κE + κF) * T)))).const_mul
          (2 * σE * σF * ρEF * 1 / κE * 1 / κF))))
    refine (h.congr_deriv ?_)
    unfold MS.corr MS.futures
    rw [loading_eq hE, loading_eq hF]
    simp only [exp_split]
    have a1 : exp (-2 * κE * T) = exp (-κE * T) ^ 2 := by rw [← exp_nat_mul]; ring_nf
    have a2 : exp (-2 * κF * T) = exp (-κF * T) ^ 2 := by rw [← exp_nat_mul]; ring_nf
    have a3 : exp (2 * κE * u) = exp (κE * u) ^ 2 := by rw [← exp_nat_mul]; ring_nf
    have a4 : exp (2 * κF * u) = exp (κF * u) ^ 2 := by rw [← exp_nat_mul]; ring_nf
    have a5 : exp (-(κE + κF) * T) = exp (-κE * T) * exp (-κF * T) := by rw [← exp_add]; ring_nf
    have a6 : exp ((κE + κF) * u) = exp (κE * u) * exp (κF * u) := by rw [← exp_add]; ring_nf
    rw [a1, a2, a3, a4, a5, a6]
    field_simp
    ring
  unfold MS.variance
  rw [intervalIntegral.integral_eq_sub_of_hasDerivAt hd]
  · simp [vzNum]
  · refine Continuous.intervalIntegrable ?_ _ _
    simp only [MS.corr, MS.futures, loading_eq hE, loading_eq hF]
    fun_prop

theorem covariance_eq : MS.covariance σS σE σF ρSE ρSF ρEF κE κF t T
    = vxzNum σS σE σF ρSF ρEF κE κF t T := by
  have hd : ∀ u ∈ Set.uIcc (0:ℝ) t, HasDerivAt (fun u =>
      σF * 1 / κF * (σS * ρSF * (u - 1 / κF * (exp (-κF * t) * exp (κF * u)))
    + σF * 1 / κF * (u - 1 / κF * exp (-κF * T) * exp (κF * u) - 1 / κF * (exp (-κF * t) * exp (κF * u))
      + 1 / (2 * κF) * exp (-κF * T) * (exp (-κF * t) * exp (2 * κF * u)))
    - σE * ρEF * 1 / κE * (u - 1 / κE * exp (-κE * T) * exp (κE * u)
      - 1 / κF * (exp (-κF * t) * exp (κF * u))
      + 1 / (κE + κF) * exp (-κE * T) * (exp (-κF * t) * exp ((κE + κF) * u)))))
      (MS.corr ρSE ρSF ρEF (MS.bond σF κF t u) (MS.futures σS σE σF κE κF T u)) u := by
    intro u _
    have i1 := hasDerivAt_id u
    have eE := hasDerivAt_expc κE u
    have eF := hasDerivAt_expc κF u
    have eF2 := hasDerivAt_expc (2 * κF) u
    have eEF := hasDerivAt_expc (κE + κF) u
    have h := (((((i1.sub ((eF.const_mul (exp (-κF * t))).const_mul (1 / κF))).const_mul (σS * ρSF)).add
      ((((i1.sub (eF.const_mul (1 / κF * exp (-κF * T)))).sub
        ((eF.const_mul (exp (-κF * t))).const_mul (1 / κF))).add
        ((eF2.const_mul (exp (-κF * t))).const_mul (1 / (2 * κF) * exp (-κF * T)))).const_mul
          (σF * 1 / κF))).sub
      ((((i1.sub (eE.const_mul (1 / κE * exp (-κE * T)))).sub
        ((eF.const_mul (exp (-κF * t))).const_mul (1 / κF))).add
        ((eEF.const_mul (exp (-κF * t))).const_mul (1 / (κE + κF) * exp (-κE * T)))).const_mul
          (σE * ρEF * 1 / κE))).const_mul (σF * 1 / κF))
    refine (h.congr_deriv ?_)
    unfold MS.corr MS.futures MS.bond
    rw [loading_eq hE, loading_eq hF, loading_eq hF]
    simp only [exp_split]
    have a4 : exp (2 * κF * u) = exp (κF * u) ^ 2 := by rw [← exp_nat_mul]; ring_nf
    have a6 : exp ((κE + κF) * u) = exp (κE * u) * exp (κF * u) := by rw [← exp_add]; ring_nf
    rw [a4, a6]
    field_simp
    ring
  unfold MS.covariance
  rw [intervalIntegral.integral_eq_sub_of_hasDerivAt hd]
  · have a4 : exp (2 * κF * t) = exp (κF * t) ^ 2 := by rw [← exp_nat_mul]; ring_nf
    have a6 : exp ((κE + κF) * t) = exp (κE * t) * exp (κF * t) := by rw [← exp_add]; ring_nf
    have a7 : exp (-κF * t) = (exp (κF * t))⁻¹ := by rw [← exp_neg]; ring_nf
    have := (exp_pos (κF * t)).ne'
    simp only [vxzNum, mul_zero, exp_zero, a4, a6, a7]
    field_simp
    ring
  · refine Continuous.intervalIntegrable ?_ _ _
    simp only [MS.corr, MS.futures, MS.bond, loading_eq hE, loading_eq hF]
    fun_prop

end calculus

/-- Building from numbers: the attributes that feed the price. -/
theorem ms_construct (Pt FT K t T σS σE σF ρSE ρSF ρEF κE κF : ℝ) (hK : K ≠ 0) (hE : κE ≠ 0)
    (hF : κF ≠ 0) (hEF : κE + κF ≠ 0) :
    ∃ a, msCls.construct (msKw Pt FT K t T σS σE σF ρSE ρSF ρEF κE κF) = (a, none) ∧
      a "_Pt" = some (.num Pt) ∧ a "_FT" = some (.num FT) ∧ a "_K" = some (.num K) ∧
      a "_vz" = some (.num √(vzNum σS σE σF ρSE ρSF ρEF κE κF t T)) ∧
      a "_vxz" = some (.num (vxzNum σS σE σF ρSF ρEF κE κF t T)) ∧
      a "_d1" = some (.num ((log (FT / K) - vxzNum σS σE σF ρSF ρEF κE κF t T
        + √(vzNum σS σE σF ρSE ρSF ρEF κE κF t T) ^ 2 / 2) / √(vzNum σS σE σF ρSE ρSF ρEF κE κF t T))) ∧
      a "_d2" = some (.num ((log (FT / K) - vxzNum σS σE σF ρSF ρEF κE κF t T
        - √(vzNum σS σE σF ρSE ρSF ρEF κE κF t T) ^ 2 / 2) / √(vzNum σS σE σF ρSE ρSF ρEF κE κF t T))) := by
  simp [Cls.construct, Cls.init, msCls, msKw, bindArgs, req, dflt, assignParams,
      exec, Expr.eval, isNoneArg, Attrs.set, Expr.log, Expr.sqrt, Expr.sq, Expr.exp, Val.map, Val.map₂,
      Val.pdiv, ok_bind, List.lookup, eval_add, eval_sub, eval_mul, eval_div, eval_ofNat, eval_one,
      eval_neg, hK, hE, hF, hEF, MSClass.vzExpr, MSClass.vxzExpr, vzNum, vxzNum]

end Verif.Props
