import Verif.Lemmas.MS
import Verif.Props.GBSAlgebra
import Verif.Props.GBSAccuracy
import Verif.Props.ObjGreeks

/-!
# The Miltersen–Schwartz option (C16, C17)
-/
set_option linter.unusedSimpArgs false
namespace Verif.Props
open Verif Verif.Spec Real

section
variable (Pt FT K t T σS σE σF ρSE ρSF ρEF κE κF : ℝ)

/-- **C17.** For all numeric parameters (`K`, `KappaE`, `KappaF` and `KappaE + KappaF` not zero) the
constructor succeeds; `_vxz` is the integrated covariance; and whenever the correlation matrix is
positive semidefinite and `t ≥ 0`, the number under the square root is nonnegative and `_vz` squared is
the integrated variance of the futures price. -/
theorem C17_integrals (hK : K ≠ 0) (hE : κE ≠ 0) (hF : κF ≠ 0) (hEF : κE + κF ≠ 0) :
    ∃ a v, msCls.construct (msKw Pt FT K t T σS σE σF ρSE ρSF ρEF κE κF) = (a, none) ∧
      a "_vxz" = some (.num (MS.covariance σS σE σF ρSE ρSF ρEF κE κF t T)) ∧
      a "_vz" = some (.num v) ∧ v = √(MS.variance σS σE σF ρSE ρSF ρEF κE κF t T) ∧
      (MS.PSD ρSE ρSF ρEF → 0 ≤ t → 0 ≤ MS.variance σS σE σF ρSE ρSF ρEF κE κF t T ∧
        v ^ 2 = MS.variance σS σE σF ρSE ρSF ρEF κE κF t T) := by
  obtain ⟨a, h, -, -, -, h1, h2, -⟩ := ms_construct Pt FT K t T σS σE σF ρSE ρSF ρEF κE κF hK hE hF hEF
  refine ⟨a, _, h, ?_, h1, ?_, fun hp ht => ?_⟩
  · rw [covariance_eq hE hF hEF, h2]
  · rw [variance_eq hE hF hEF]
  · have h0 : 0 ≤ MS.variance σS σE σF ρSE ρSF ρEF κE κF t T :=
      intervalIntegral.integral_nonneg ht fun u _ => hp _
    exact ⟨h0, by rw [← variance_eq hE hF hEF, sq_sqrt h0]⟩

/-- The prices in terms of the two integrals. -/
theorem ms_prices (hK : K ≠ 0) (hE : κE ≠ 0) (hF : κF ≠ 0) (hEF : κE + κF ≠ 0) :
    ∃ a, msCls.construct (msKw Pt FT K t T σS σE σF ρSE ρSF ρEF κE κF) = (a, none) ∧
      ∀ v c d1 d2, v = √(MS.variance σS σE σF ρSE ρSF ρEF κE κF t T) →
        c = MS.covariance σS σE σF ρSE ρSF ρEF κE κF t T →
        d1 = (log (FT / K) - c + v ^ 2 / 2) / v → d2 = (log (FT / K) - c - v ^ 2 / 2) / v →
        MSClass.call.run a = .ok (.num (Pt * (FT * exp (-c) * CND d1 - K * CND d2))) ∧
        MSClass.put.run a = .ok (.num (Pt * (K * CND (-d2) - FT * exp (-c) * CND (-d1)))) := by
  obtain ⟨a, h, h1, h2, h3, h4, h5, h6, h7⟩ :=
    ms_construct Pt FT K t T σS σE σF ρSE ρSF ρEF κE κF hK hE hF hEF
  refine ⟨a, h, ?_⟩
  rintro v c d1 d2 rfl rfl rfl rfl
  rw [variance_eq hE hF hEF, covariance_eq hE hF hEF]
  constructor
  · simp [Meth.run, MSClass.call, eval_add, eval_sub, eval_mul, eval_div, eval_neg, Expr.exp, Expr.cnd,
      Expr.eval, h1, h2, h3, h4, h5, h6, h7, ok_bind, Val.map, Val.map₂]
  · simp [Meth.run, MSClass.put, eval_add, eval_sub, eval_mul, eval_div, eval_neg, Expr.exp, Expr.cnd,
      Expr.eval, h1, h2, h3, h4, h5, h6, h7, ok_bind, Val.map, Val.map₂]

/-- **C16 (parity).** For all numeric parameters: `call - put = Pt (FT e^{-cov} - K)`. -/
theorem C16_parity (hK : K ≠ 0) (hE : κE ≠ 0) (hF : κF ≠ 0) (hEF : κE + κF ≠ 0) :
    ∃ a c p, msCls.construct (msKw Pt FT K t T σS σE σF ρSE ρSF ρEF κE κF) = (a, none) ∧
      MSClass.call.run a = .ok (.num c) ∧ MSClass.put.run a = .ok (.num p) ∧
      c - p = Pt * (FT * exp (-MS.covariance σS σE σF ρSE ρSF ρEF κE κF t T) - K) := by
  obtain ⟨a, h, h1⟩ := ms_prices Pt FT K t T σS σE σF ρSE ρSF ρEF κE κF hK hE hF hEF
  obtain ⟨hc, hp⟩ := h1 _ _ _ _ rfl rfl rfl rfl
  refine ⟨a, _, _, h, hc, hp, ?_⟩
  rw [CND_neg, CND_neg]
  ring

/-- **C16 (price).** For positive `FT`, `K` and positive variance the prices are within the accuracy of
the normal approximation of `Pt` times the Black–Scholes value of an option on the futures price
discounted by the covariance, with total variance the integrated variance. -/
theorem C16_price (hFT : 0 < FT) (hK : 0 < K) (hE : κE ≠ 0) (hF : κF ≠ 0) (hEF : κE + κF ≠ 0)
    (hv : 0 < MS.variance σS σE σF ρSE ρSF ρEF κE κF t T) (call : Bool) :
    ∃ a x, msCls.construct (msKw Pt FT K t T σS σE σF ρSE ρSF ρEF κE κF) = (a, none) ∧
      (if call then MSClass.call.run a else MSClass.put.run a) = .ok (.num x) ∧
      |x - Pt * bsPrice call (FT * exp (-MS.covariance σS σE σF ρSE ρSF ρEF κE κF t T)) K 1 0 0
          (√(MS.variance σS σE σF ρSE ρSF ρEF κE κF t T))|
        ≤ 7.5e-8 * |Pt| * (FT * exp (-MS.covariance σS σE σF ρSE ρSF ρEF κE κF t T) + K) := by
  obtain ⟨a, h, h1⟩ := ms_prices Pt FT K t T σS σE σF ρSE ρSF ρEF κE κF hK.ne' hE hF hEF
  set c := MS.covariance σS σE σF ρSE ρSF ρEF κE κF t T with hc
  set w := MS.variance σS σE σF ρSE ρSF ρEF κE κF t T with hw
  have hs := sqrt_pos.2 hv
  have hlog : log (FT * exp (-c) / K) = log (FT / K) - c := by
    rw [mul_div_right_comm, log_mul (by positivity) (exp_pos _).ne', log_exp]; ring
  have e1 : GBS.d1Expr (FT * exp (-c)) K 1 0 (√w) = (log (FT / K) - c + √w ^ 2 / 2) / √w := by
    unfold GBS.d1Expr; rw [hlog, sqrt_one]; congr 1 <;> ring
  have e2 : GBS.d2Expr (GBS.d1Expr (FT * exp (-c)) K 1 0 (√w)) (√w) 1
      = (log (FT / K) - c - √w ^ 2 / 2) / √w := by
    rw [e1]; unfold GBS.d2Expr; rw [sqrt_one]; field_simp; ring
  obtain ⟨h2, h3⟩ := h1 (√w) c _ _ rfl rfl e1 e2
  obtain ⟨y, hy, hacc⟩ := C02_price_accuracy (S := FT * exp (-c)) (K := K) (t := 1) (σ := √w)
    ⟨by positivity, hK, one_pos, hs⟩ 0 0 call
  have key : (if call then MSClass.call.run a else MSClass.put.run a) = .ok (.num (Pt * y)) := by
    cases call
    · simp only [GBS.price, GBS.put, GBS.new, GBS.checkSigma, GBS.attr, Bool.false_eq_true, if_false] at hy
      simp only [Bool.false_eq_true, if_false, h3, ← Except.ok.inj hy]
      simp
    · simp only [GBS.price, GBS.call, GBS.new, GBS.checkSigma, GBS.attr, if_true] at hy
      simp only [if_true, h2, ← Except.ok.inj hy]
      simp
  refine ⟨a, _, h, key, ?_⟩
  rw [← mul_sub, abs_mul]
  calc |Pt| * |y - bsPrice call (FT * exp (-c)) K 1 0 0 (√w)|
      ≤ |Pt| * (7.5e-8 * (FT * exp (-c) * exp ((0 - 0) * 1) + K * exp (-0 * 1))) :=
        mul_le_mul_of_nonneg_left hacc (abs_nonneg _)
    _ = _ := by simp; ring

/-- **C16 (degenerate case).** Without yield and rate volatility and with `Pt = e^{-rt}` the prices are
exactly those of `Black76Option(FT, K, t, r, sigmaS)`. -/
theorem C16_black76 (r : ℝ) (hK : K ≠ 0) (ht : 0 < t) (hS : 0 < σS) (hE : κE ≠ 0) (hF : κF ≠ 0)
    (hEF : κE + κF ≠ 0) :
    ∃ a a', msCls.construct (msKw (exp (-r * t)) FT K t T σS 0 0 ρSE ρSF ρEF κE κF) = (a, none) ∧
      black76Cls.construct (b76Kw (.num FT) (.num K) (.num t) (.num r) (.num σS)) = (a', none) ∧
      ∃ c p, MSClass.call.run a = .ok (.num c) ∧ GBSClass.call.run a' = .ok (.num c) ∧
        MSClass.put.run a = .ok (.num p) ∧ GBSClass.put.run a' = .ok (.num p) := by
  obtain ⟨a, h, h1⟩ := ms_prices (exp (-r * t)) FT K t T σS 0 0 ρSE ρSF ρEF κE κF hK hE hF hEF
  obtain ⟨a', ha', hg⟩ := isGBS_construct FT K t r 0 σS hK
  have hcov : MS.covariance σS 0 0 ρSE ρSF ρEF κE κF t T = 0 := by
    rw [covariance_eq hE hF hEF]; simp [vxzNum]
  have hvar : MS.variance σS 0 0 ρSE ρSF ρEF κE κF t T = (σS * √t) ^ 2 := by
    rw [variance_eq hE hF hEF, mul_pow, sq_sqrt ht.le]; simp [vzNum]
  have hs := sqrt_pos.2 ht
  have hv : √(MS.variance σS 0 0 ρSE ρSF ρEF κE κF t T) = σS * √t := by
    rw [hvar, sqrt_sq (by positivity)]
  have hst : √t ^ 2 = t := sq_sqrt ht.le
  have e1 : GBS.d1Expr FT K t 0 σS = (log (FT / K) - 0 + (σS * √t) ^ 2 / 2) / (σS * √t) := by
    unfold GBS.d1Expr; rw [mul_pow, hst]; congr 1; ring
  have e2 : GBS.d2Expr (GBS.d1Expr FT K t 0 σS) σS t
      = (log (FT / K) - 0 - (σS * √t) ^ 2 / 2) / (σS * √t) := by
    rw [e1]; unfold GBS.d2Expr; field_simp; ring
  obtain ⟨h2, h3⟩ := h1 (σS * √t) 0 _ _ hv.symm hcov.symm e1 e2
  refine ⟨a, a', h, (C11_is_gbs _ _ _ _ _).trans ha', _, _, h2, ?_, h3, ?_⟩
  · rw [(isGBS_methods hg).1]
    simp [GBS.call, GBS.new, GBS.checkSigma, GBS.attr, Except.map, pure, Except.pure, bind, Except.bind]
    ring
  · rw [(isGBS_methods hg).2.1]
    simp [GBS.put, GBS.new, GBS.checkSigma, GBS.attr, Except.map, pure, Except.pure, bind, Except.bind]
    ring

end

/-- Example for C16 and C17: the docstring's parameters meet every hypothesis; in particular the
correlation matrix is positive semidefinite and the variance is positive. -/
theorem C17_example : MS.PSD 0.805 0.0805 0.1243 ∧
    0 ≤ MS.variance 0.266 0.249 0.0096 0.805 0.0805 0.1243 1.045 0.2 (1 / 4) (1 / 2) ∧
    ∃ a v, msCls.construct (msKw (exp (-0.05 / 4)) 95 80 (1 / 4) (1 / 2) 0.266 0.249 0.0096 0.805 0.0805
        0.1243 1.045 0.2) = (a, none) ∧ a "_vz" = some (.num v) ∧
      v ^ 2 = MS.variance 0.266 0.249 0.0096 0.805 0.0805 0.1243 1.045 0.2 (1 / 4) (1 / 2) := by
  have hp : MS.PSD 0.805 0.0805 0.1243 := by
    rintro ⟨x, y, z⟩
    simp only [MS.corr]
    nlinarith [sq_nonneg (x + 0.805 * y + 0.0805 * z), sq_nonneg (y + 0.15 * z), sq_nonneg y, sq_nonneg z]
  obtain ⟨a, v, h1, -, h2, -, h3⟩ := C17_integrals (exp (-0.05 / 4)) 95 80 (1 / 4) (1 / 2) 0.266 0.249
    0.0096 0.805 0.0805 0.1243 1.045 0.2 (by norm_num) (by norm_num) (by norm_num) (by norm_num)
  exact ⟨hp, (h3 hp (by norm_num)).1, a, v, h1, h2, (h3 hp (by norm_num)).2⟩

/-- Example for C16. -/
theorem C16_example : ∃ a c p, msCls.construct (msKw (exp (-0.05 / 4)) 95 80 (1 / 4) (1 / 2) 0.266 0.249
      0.0096 0.805 0.0805 0.1243 1.045 0.2) = (a, none) ∧
    MSClass.call.run a = .ok (.num c) ∧ MSClass.put.run a = .ok (.num p) ∧ c - p = exp (-0.05 / 4) *
      (95 * exp (-MS.covariance 0.266 0.249 0.0096 0.805 0.0805 0.1243 1.045 0.2 (1 / 4) (1 / 2)) - 80) :=
  C16_parity _ _ _ _ _ _ _ _ _ _ _ _ _ (by norm_num) (by norm_num) (by norm_num) (by norm_num)

/-- **C09 fails** for `MiltersenSchwartzOption`: `set_param("KappaF", 0)` raises `ZeroDivisionError`
after the new value has been stored, with `_d1` and `_d2` left as they were. -/
theorem C09_not_atomic_ms (Pt FT K t T σS σE σF ρSE ρSF ρEF κE κF : ℝ) (hK : K ≠ 0) (hE : κE ≠ 0)
    (hF : κF ≠ 0) (hEF : κE + κF ≠ 0) :
    ∃ a₀ a, msCls.construct (msKw Pt FT K t T σS σE σF ρSE ρSF ρEF κE κF) = (a₀, none) ∧
      msCls.setParam "KappaF" (.num 0) a₀ = (a, some .zeroDivision) ∧
      a "_KappaF" = some (.num 0) ∧ a "_d1" = a₀ "_d1" ∧ a "_d2" = a₀ "_d2" := by
  obtain ⟨a₀, h, -⟩ := ms_construct Pt FT K t T σS σE σF ρSE ρSF ρEF κE κF hK hE hF hEF
  have hl : msCls.Lawful := lawful_of_mem (by simp [classes])
  obtain ⟨p, hb, hs⟩ := construct_state hl h
  have h1 := (State.getParams hl hs)
  have hg : msCls.getParams a₀ = .ok (msKw Pt FT K t T σS σE σF ρSE ρSF ρEF κE κF) := by
    rw [h1.1]
    obtain ⟨q, hq, g⟩ : ∃ p, bindArgs msCls.sig (msKw Pt FT K t T σS σE σF ρSE ρSF ρEF κE κF) = .ok p ∧
        p "Pt" = some (.num Pt) ∧
        p "FT" = some (.num FT) ∧
        p "K" = some (.num K) ∧
        p "t" = some (.num t) ∧
        p "T" = some (.num T) ∧
        p "sigmaS" = some (.num σS) ∧
        p "sigmaE" = some (.num σE) ∧
        p "sigmaF" = some (.num σF) ∧
        p "rhoSE" = some (.num ρSE) ∧
        p "rhoSF" = some (.num ρSF) ∧
        p "rhoEF" = some (.num ρEF) ∧
        p "KappaE" = some (.num κE) ∧
        p "KappaF" = some (.num κF) := by
      simp [msKw, bindArgs, msCls, req, dflt, List.lookup]
    rw [hb] at hq
    cases hq
    have hf := h1.2
    simp [msCls] at hf
    simp [msCls, msKw, hf, g]
  refine ⟨a₀, (msCls.setParam "KappaF" (.num 0) a₀).1, h, ?_⟩
  simp [Cls.setParam, hg, Cls.init]
  simp [Cls.init, msCls, msKw, bindArgs, req, dflt, assignParams, Dict.insert,
      exec, Expr.eval, isNoneArg, Attrs.set, Expr.log, Expr.sqrt, Expr.sq, Expr.exp, Val.map, Val.map₂,
      Val.pdiv, ok_bind, error_bind, List.lookup, eval_add, eval_sub, eval_mul, eval_div, eval_ofNat,
      eval_one, eval_neg, MSClass.vzExpr]

end Verif.Props
