import Verif.Lemmas.MSRounding
import Verif.Props.KirkRounding
import Verif.Props.MS

/-! C142: rounding errors of the prices of `MiltersenSchwartzOption`. -/
namespace Verif.Props
open Spec Real MSRound

variable {e Pt FT K t T σS σE σF ρSE ρSF ρEF κE κF : ℝ} {A : ArithT}

/-- **C142.** In exact arithmetic the functions are those of the class. -/
theorem C142_exact (isCall : Bool) (Pt FT t T σS σE σF ρSE ρSF ρEF : ℝ) (hK : K ≠ 0) (hE : κE ≠ 0) (hF : κF ≠ 0)
    (hEF : κE + κF ≠ 0) :
    ∃ a, msCls.construct (msKw Pt FT K t T σS σE σF ρSE ρSF ρEF κE κF) = (a, none) ∧
      (if isCall then MSClass.call.run a else MSClass.put.run a)
        = .ok (.num (MSFl.price ArithT.exact isCall Pt FT K t T σS σE σF ρSE ρSF ρEF κE κF)) := by
  have hcnd : ∀ x, GBSFl.cnd ArithT.exact x = CND x := by
    intro x
    simp only [GBSFl.cnd, GBSFl.ndf, GBSFl.cndPoly, GBSFl.cndK, ArithT.exact, Arith.exact, id, CND, NDF,
      cndPoly, Verif.cndK]
  obtain ⟨a, h, h1⟩ := ms_prices Pt FT K t T σS σE σF ρSE ρSF ρEF κE κF hK hE hF hEF
  have hv : MSFl.vz2 ArithT.exact σS σE σF ρSE ρSF ρEF κE κF t T = vzNum σS σE σF ρSE ρSF ρEF κE κF t T := rfl
  have hx : MSFl.vxz ArithT.exact σS σE σF ρSF ρEF κE κF t T = vxzNum σS σE σF ρSF ρEF κE κF t T := rfl
  obtain ⟨hc, hp⟩ := h1 _ _ _ _ rfl rfl rfl rfl
  rw [variance_eq hE hF hEF, covariance_eq hE hF hEF] at hc hp
  refine ⟨a, h, ?_⟩
  cases isCall
  · rw [if_neg (by simp), hp]
    simp only [MSFl.price, MSFl.value, Bool.false_eq_true, if_false, hcnd, hv, hx]
    rfl
  · rw [if_pos rfl, hc]
    simp only [MSFl.price, MSFl.value, if_true, hcnd, hv, hx]
    rfl

/-- Relative error of the computed variance: what cancels in its terms is magnified. -/
noncomputable def msVarErr (e σS σE σF ρSE ρSF ρEF κE κF t T : ℝ) : ℝ :=
  (exp (18 * MS.opLevel e κE κF t T) - 1) * (MS.varGross σS σE σF ρSE ρSF ρEF κE κF t T
    / MS.variance σS σE σF ρSE ρSF ρEF κE κF t T)

/-- Error level of the computed volatility. -/
noncomputable def msVolLevel (e σS σE σF ρSE ρSF ρEF κE κF t T : ℝ) : ℝ :=
  -log (1 - msVarErr e σS σE σF ρSE ρSF ρEF κE κF t T) / 2 + level e

/-- Size of the numbers whose quotient is `d1` or `d2`. -/
noncomputable def msCond (FT K σS σE σF ρSE ρSF ρEF κE κF t T : ℝ) : ℝ :=
  (|log (FT / K)| + 1 + MS.covGross σS σE σF ρSF ρEF κE κF t T
    + MS.variance σS σE σF ρSE ρSF ρEF κE κF t T / 2) / √(MS.variance σS σE σF ρSE ρSF ρEF κE κF t T)

/-- Error level of `d1` and `d2`. -/
noncomputable def msDLevel (e σS σE σF ρSE ρSF ρEF κE κF t T : ℝ) : ℝ :=
  18 * MS.opLevel e κE κF t T + 3 * msVolLevel e σS σE σF ρSE ρSF ρEF κE κF t T + 4 * level e

/-- Relative error of the price caused by rounding and by the polynomial approximation. -/
noncomputable def msErr (e FT K σS σE σF ρSE ρSF ρEF κE κF t T : ℝ) : ℝ :=
  exp (5 * level e + (exp (18 * MS.opLevel e κE κF t T) - 1) * MS.covGross σS σE σF ρSF ρEF κE κF t T)
    * (1 + (7.5e-8 + (exp (39 * level e) - 1) * 3.25
      + 0.4 * ((exp (msDLevel e σS σE σF ρSE ρSF ρEF κE κF t T) - 1)
        * msCond FT K σS σE σF ρSE ρSF ρEF κE κF t T))) - 1

/-- **C142.** The prices computed in rounded arithmetic differ from the value of the model by at most `msErr`
relative to the two legs, as long as the variance is not lost in rounding. -/
theorem C142_price (hA : RoundedT e A) (he : 0 ≤ e) (he1 : e < 1) (hFT : 0 < FT) (hK : 0 < K) (hE : κE ≠ 0)
    (hF : κF ≠ 0) (hEF : κE + κF ≠ 0) (hv : 0 < MS.variance σS σE σF ρSE ρSF ρEF κE κF t T)
    (hδ : msVarErr e σS σE σF ρSE ρSF ρEF κE κF t T < 1) (isCall : Bool) :
    |MSFl.price A isCall Pt FT K t T σS σE σF ρSE ρSF ρEF κE κF
        - Pt * bsPrice isCall (FT * exp (-MS.covariance σS σE σF ρSE ρSF ρEF κE κF t T)) K 1 0 0
          (√(MS.variance σS σE σF ρSE ρSF ρEF κE κF t T))|
      ≤ msErr e FT K σS σE σF ρSE ρSF ρEF κE κF t T
        * (|Pt| * (FT * exp (-MS.covariance σS σE σF ρSE ρSF ρEF κE κF t T) + K)) := by
  have h0 := unit_nonneg he he1
  have hl : level e ≤ MS.opLevel e κE κF t T := le_opLevel he he1
  have ev : Err (18 * MS.opLevel e κE κF t T) (MSFl.vz2 A σS σE σF ρSE ρSF ρEF κE κF t T)
      (vzNum σS σE σF ρSE ρSF ρEF κE κF t T) (MS.varGross σS σE σF ρSE ρSF ρEF κE κF t T) := by
    have := vz2_err hA he he1 (κE := κE) (κF := κF) (t := t) (T := T) σS σE σF ρSE ρSF ρEF
    unfold E at this
    push_cast at this
    exact this
  have ec : Err (18 * MS.opLevel e κE κF t T) (MSFl.vxz A σS σE σF ρSF ρEF κE κF t T)
      (vxzNum σS σE σF ρSF ρEF κE κF t T) (MS.covGross σS σE σF ρSF ρEF κE κF t T) := by
    have := vxz_err hA he he1 (κE := κE) (κF := κF) (t := t) (T := T) σS σE σF ρSF ρEF
    unfold E at this
    push_cast at this
    exact this
  rw [← variance_eq hE hF hEF] at ev
  rw [← covariance_eq hE hF hEF (ρSE := ρSE)] at ec
  unfold msErr msDLevel msCond
  unfold MSFl.price
  set v' := MSFl.vz2 A σS σE σF ρSE ρSF ρEF κE κF t T
  set c' := MSFl.vxz A σS σE σF ρSF ρEF κE κF t T
  set w := MS.variance σS σE σF ρSE ρSF ρEF κE κF t T with hw
  set c := MS.covariance σS σE σF ρSE ρSF ρEF κE κF t T
  set C := MS.covGross σS σE σF ρSF ρEF κE κF t T
  set G := MS.varGross σS σE σF ρSE ρSF ρEF κE κF t T
  set ℓ := MS.opLevel e κE κF t T
  set ω := msVolLevel e σS σE σF ρSE ρSF ρEF κE κF t T with hω
  have hC : 0 ≤ C := ec.nonneg
  have hℓ : 0 ≤ ℓ := h0.trans hl
  have hx18 := one_le_exp (by linarith : 0 ≤ 18 * ℓ)
  have hδ0 : 0 ≤ msVarErr e σS σE σF ρSE ρSF ρEF κE κF t T := by
    unfold msVarErr
    exact mul_nonneg (by linarith) (div_nonneg ev.nonneg hv.le)
  -- the volatility
  have rv : Rel (-log (1 - msVarErr e σS σE σF ρSE ρSF ρEF κE κF t T)) v' w :=
    Rel.of_round hδ0 hδ (by
      rw [abs_of_pos hv]
      refine ev.err.trans (le_of_eq ?_)
      unfold msVarErr
      rw [mul_assoc, div_mul_cancel₀ _ hv.ne'])
  have rs : Rel ω (A.sqrt v') √w :=
    (rv.sqrt.round he he1 (z := A.sqrt v')
      (by rw [abs_of_nonneg (sqrt_nonneg _)]; exact hA.sqrt _)).mono (by rw [hω]; unfold msVolLevel level; linarith)
  have hω0 : 0 ≤ ω := rs.nonneg
  have hs : 0 < √w := sqrt_pos.2 hv
  -- the arguments of the distribution function
  have el : Err (2 * level e) (A.log (A.div FT K)) (log (FT / K)) (|log (FT / K)| + 1) := by
    obtain ⟨δ, hδ', hx⟩ := Rel.of_round he he1 (hA.div FT K)
    have h1 : Err (level e) (log (A.div FT K)) (log (FT / K)) (|log (FT / K)| + 1) := by
      refine ⟨?_, by linarith⟩
      rw [hx, log_mul (by positivity) (exp_pos _).ne', log_exp, add_sub_cancel_left]
      have := add_one_le_exp (level e)
      unfold level at *
      nlinarith [abs_nonneg (log (FT / K))]
    exact (h1.round' he he1 (hA.log _)).mono (by unfold level; linarith)
  have n1 := ((el.mono (by linarith : 2 * level e ≤ 18 * ℓ)).sub ec).round' he he1 (hA.sub _ _)
  have p1 := (rs.pow 2).round he he1 (hA.pow (A.sqrt v') 2)
  have p2 := ((p1.div (Rel.rfl' (y := (2 : ℝ)))).round he he1 (hA.div _ _)).err
  rw [sq_sqrt hv.le, abs_of_pos (by positivity : 0 < w / 2)] at p2
  have hnum : ∀ {x y : ℝ}, Err (18 * ℓ + 2 * ω + 3 * level e) x y (|log (FT / K)| + 1 + C + w / 2) →
      Err (18 * ℓ + 3 * ω + 4 * level e) (A.div x (A.sqrt v')) (y / √w)
        ((|log (FT / K)| + 1 + C + w / 2) / √w) := by
    intro x y h
    have := h.mul rs.inv.err
    rw [← div_eq_mul_inv, ← div_eq_mul_inv, abs_of_pos (inv_pos.2 hs), ← div_eq_mul_inv] at this
    exact (this.round' he he1 (hA.div _ _)).mono (by unfold level; linarith)
  have n1' := n1.mono (θ' := 18 * ℓ + 2 * ω + 2 * level e) (by unfold level at *; linarith)
  have p2' := p2.mono (θ' := 18 * ℓ + 2 * ω + 2 * level e) (by unfold level at *; push_cast; linarith)
  have e1 : Err (18 * ℓ + 3 * ω + 4 * level e) (MSFl.d1 A FT K (A.sqrt v') c') ((log (FT / K) - c + w / 2) / √w)
      ((|log (FT / K)| + 1 + C + w / 2) / √w) :=
    hnum (((n1'.add p2').round' he he1 (hA.add _ _)).mono (by unfold level; linarith))
  have e2 : Err (18 * ℓ + 3 * ω + 4 * level e) (MSFl.d2 A FT K (A.sqrt v') c') ((log (FT / K) - c - w / 2) / √w)
      ((|log (FT / K)| + 1 + C + w / 2) / √w) :=
    hnum (((n1'.sub p2').round' he he1 (hA.sub _ _)).mono (by unfold level; linarith))
  have hθ0 : 0 ≤ 18 * ℓ + 3 * ω + 4 * level e := by linarith
  -- the long leg
  have x1 := ec.neg.exp'.round' he he1 (z := A.exp (-c')) (by rw [abs_of_pos (exp_pos _)]; exact hA.exp _)
  have x2 := ((Rel.rfl' (y := FT)).err.mul x1).round' he he1 (hA.mul _ _)
  rw [abs_of_pos hFT] at x2
  have kK := (Rel.rfl' (y := K)).err
  rw [abs_of_pos hK] at kK
  set X := (|log (FT / K)| + 1 + C + w / 2) / √w with hX
  set Q := 7.5e-8 + (exp (39 * level e) - 1) * 3.25 + 0.4 * ((exp (18 * ℓ + 3 * ω + 4 * level e) - 1) * X) with hQ
  have hQ0 : 0 ≤ Q := by
    have h39 := one_le_exp (by linarith : 0 ≤ 39 * level e)
    have hθ1 := one_le_exp hθ0
    have h1 : 0 ≤ (exp (39 * level e) - 1) * 3.25 := mul_nonneg (by linarith) (by norm_num)
    have h2 : 0 ≤ (exp (18 * ℓ + 3 * ω + 4 * level e) - 1) * X := mul_nonneg (by linarith) e1.nonneg
    rw [hQ]; linarith
  have hq : 0 ≤ log (1 + Q) := log_nonneg (by linarith)
  have hcx : 0 ≤ (exp (18 * ℓ) - 1) * C := mul_nonneg (by linarith) hC
  -- the two products and their difference
  have long : ∀ {u y : ℝ}, Err (log (1 + Q)) u y 1 → Err ((exp (18 * ℓ) - 1) * C + 3 * level e + log (1 + Q))
      (A.mul (A.mul FT (A.exp (-c'))) u) (FT * exp (-c) * y) (FT * exp (-c)) := by
    intro u y hu
    have := (x2.mul hu).round' he he1 (hA.mul _ _)
    rw [mul_one] at this
    exact this.mono (by unfold level; linarith)
  have short : ∀ {u y : ℝ}, Err (log (1 + Q)) u y 1 → Err ((exp (18 * ℓ) - 1) * C + 3 * level e + log (1 + Q))
      (A.mul K u) (K * y) K := by
    intro u y hu
    have := (kK.mul hu).round' he he1 (hA.mul _ _)
    rw [mul_one] at this
    exact this.mono (by unfold level at *; linarith)
  have fin : ∀ {x y : ℝ}, Err ((exp (18 * ℓ) - 1) * C + 4 * level e + log (1 + Q)) x y (FT * exp (-c) + K) →
      |A.mul Pt x - Pt * y| ≤ (exp (5 * level e + (exp (18 * ℓ) - 1) * C) * (1 + Q) - 1)
        * (|Pt| * (FT * exp (-c) + K)) := by
    intro x y h
    have := (((Rel.rfl' (y := Pt)).err.mul h).round' he he1 (hA.mul _ _)).mono
      (θ' := (5 * level e + (exp (18 * ℓ) - 1) * C) + log (1 + Q)) (by unfold level; linarith)
    refine this.err.trans (le_of_eq ?_)
    rw [exp_add, exp_log (by linarith)]
  -- the exact values
  have hF0 : 0 < FT * exp (-c) := by positivity
  have hlog : log (FT * exp (-c) / K) = log (FT / K) - c := by
    rw [mul_div_right_comm, log_mul (by positivity) (exp_pos _).ne', log_exp]; ring
  have hd1 : D1 (FT * exp (-c)) K 1 0 √w = (log (FT / K) - c + w / 2) / √w := by
    unfold D1 GBS.d1Expr; rw [hlog, sqrt_one, mul_self_sqrt hv.le]; congr 1 <;> ring
  have hd2 : D1 (FT * exp (-c)) K 1 0 √w - √w * √1 = (log (FT / K) - c - w / 2) / √w := by
    rw [hd1, sqrt_one, mul_one, eq_div_iff hs.ne', sub_mul, div_mul_cancel₀ _ hs.ne', mul_self_sqrt hv.le]; ring
  have hcall := bsCall_eq (r := 0) (b := 0) hF0 hK one_pos hs
  rw [hd2, hd1] at hcall
  simp only [sub_self, neg_zero, zero_mul, exp_zero, mul_one] at hcall
  cases isCall
  · have hb : bsPrice false (FT * exp (-c)) K 1 0 0 √w
        = K * Φ (-((log (FT / K) - c - w / 2) / √w)) - FT * exp (-c) * Φ (-((log (FT / K) - c + w / 2) / √w)) := by
      have e3 : bsPrice false (FT * exp (-c)) K 1 0 0 √w = bsPut (FT * exp (-c)) K 1 0 0 √w := rfl
      have f1 := Φ_add_Φ_neg ((log (FT / K) - c + w / 2) / √w)
      have f2 := Φ_add_Φ_neg ((log (FT / K) - c - w / 2) / √w)
      rw [e3, bsPut_eq_call zero_le_one, hcall]
      simp only [sub_self, neg_zero, zero_mul, exp_zero, mul_one]
      linear_combination K * -f2 + FT * exp (-c) * f1
    rw [hb]
    have u := ((short (cnd_near hA he he1 hθ0 e2.neg)).sub (long (cnd_near hA he he1 hθ0 e1.neg))).round' he he1
      (hA.sub _ _)
    rw [add_comm K] at u
    exact fin (u.mono (by unfold level; linarith))
  · have e3 : bsPrice true (FT * exp (-c)) K 1 0 0 √w = bsCall (FT * exp (-c)) K 1 0 0 √w := rfl
    rw [e3, hcall]
    have u := ((long (cnd_near hA he he1 hθ0 e1)).sub (short (cnd_near hA he he1 hθ0 e2))).round' he he1
      (hA.sub _ _)
    exact fin (u.mono (by unfold level; linarith))

/-- **C142.** In double precision the error stays below `1e-7` of the two legs, when `(|κE| + |κF|) (|t| + |T|)` is at most
`10`, no more than two digits of the variance cancel, and the condition of `d1`, `d2` is at most `50`. -/
theorem C142_double (hA : RoundedT e A) (he : 0 ≤ e) (he1 : e ≤ 2⁻¹ ^ 53) (hFT : 0 < FT) (hK : 0 < K) (hE : κE ≠ 0)
    (hF : κF ≠ 0) (hEF : κE + κF ≠ 0) (hv : 0 < MS.variance σS σE σF ρSE ρSF ρEF κE κF t T)
    (hk : (|κE| + |κF|) * (|t| + |T|) ≤ 10)
    (hg : MS.varGross σS σE σF ρSE ρSF ρEF κE κF t T ≤ 100 * MS.variance σS σE σF ρSE ρSF ρEF κE κF t T)
    (hc : MS.covGross σS σE σF ρSF ρEF κE κF t T ≤ 10)
    (hd : msCond FT K σS σE σF ρSE ρSF ρEF κE κF t T ≤ 50) (isCall : Bool) :
    |MSFl.price A isCall Pt FT K t T σS σE σF ρSE ρSF ρEF κE κF
        - Pt * bsPrice isCall (FT * exp (-MS.covariance σS σE σF ρSE ρSF ρEF κE κF t T)) K 1 0 0
          (√(MS.variance σS σE σF ρSE ρSF ρEF κE κF t T))|
      ≤ 1e-7 * (|Pt| * (FT * exp (-MS.covariance σS σE σF ρSE ρSF ρEF κE κF t T) + K)) := by
  have he53 : e ≤ 1.2e-16 := he1.trans (by norm_num)
  have hlt : e < 1 := by linarith
  have hl := kirk_level_le he (by linarith)
  have hl0 := kirk_level_nonneg he hlt
  have hL : level e ≤ 2.4e-16 := by unfold level at *; linarith
  have hC0 : 0 ≤ MS.covGross σS σE σF ρSF ρEF κE κF t T :=
    Err.nonneg (vxz_err hA he hlt (κE := κE) (κF := κF) (t := t) (T := T) σS σE σF ρSF ρEF)
  have hG0 : 0 ≤ MS.varGross σS σE σF ρSE ρSF ρEF κE κF t T :=
    Err.nonneg (vz2_err hA he hlt (κE := κE) (κF := κF) (t := t) (T := T) σS σE σF ρSE ρSF ρEF)
  obtain ⟨ℓ, hℓ⟩ : ∃ ℓ, ℓ = MS.opLevel e κE κF t T := ⟨_, rfl⟩
  have h3 := kirk_exp_sub_one_le (x := 3 * level e) (by unfold level at *; linarith) (by linarith)
  have h3n : 0 ≤ exp (3 * level e) - 1 := by
    linarith [one_le_exp (by unfold level at *; linarith : 0 ≤ 3 * level e)]
  have hk0 : 0 ≤ (|κE| + |κF|) * (|t| + |T|) := by positivity
  have hℓ0 : 0 ≤ ℓ := by
    rw [hℓ]; exact (unit_nonneg he hlt).trans (le_opLevel he hlt)
  have hℓ1 : ℓ ≤ 3e-14 := by
    rw [hℓ]; unfold MS.opLevel
    have : (exp (3 * level e) - 1) * (2 * (|κE| + |κF|) * (|t| + |T|)) ≤ 1.44e-15 * 20 :=
      mul_le_mul (by linarith) (by linarith) (by linarith) (by norm_num)
    linarith
  have h18 := kirk_exp_sub_one_le (x := 18 * ℓ) (by linarith) (by linarith)
  have h18n : 0 ≤ exp (18 * ℓ) - 1 := by linarith [one_le_exp (by linarith : 0 ≤ 18 * ℓ)]
  have hr0 : 0 ≤ MS.varGross σS σE σF ρSE ρSF ρEF κE κF t T / MS.variance σS σE σF ρSE ρSF ρEF κE κF t T :=
    div_nonneg hG0 hv.le
  have hδ0 : 0 ≤ msVarErr e σS σE σF ρSE ρSF ρEF κE κF t T := by
    unfold msVarErr; rw [← hℓ]; exact mul_nonneg h18n hr0
  have hδ : msVarErr e σS σE σF ρSE ρSF ρEF κE κF t T ≤ 1.1e-10 := by
    unfold msVarErr; rw [← hℓ]
    calc _ ≤ (1.1e-12 : ℝ) * 100 := mul_le_mul (by linarith) ((div_le_iff₀ hv).2 hg) hr0 (by norm_num)
      _ ≤ _ := by norm_num
  refine (C142_price hA he hlt hFT hK hE hF hEF hv (by linarith) isCall).trans ?_
  refine mul_le_mul_of_nonneg_right ?_ (by positivity)
  have hω : msVolLevel e σS σE σF ρSE ρSF ρEF κE κF t T ≤ 1.2e-10 := by
    have := kirk_level_le hδ0 (by linarith)
    unfold msVolLevel; unfold level at this ⊢ hL; linarith
  have hω0 : 0 ≤ msVolLevel e σS σE σF ρSE ρSF ρEF κE κF t T := by
    have := kirk_level_nonneg hδ0 (by linarith)
    unfold msVolLevel; unfold level at *; linarith
  have hd0 : 0 ≤ msCond FT K σS σE σF ρSE ρSF ρEF κE κF t T := by
    unfold msCond; positivity
  unfold msErr msDLevel
  rw [← hℓ]
  generalize msVolLevel e σS σE σF ρSE ρSF ρEF κE κF t T = ω at *
  generalize msCond FT K σS σE σF ρSE ρSF ρEF κE κF t T = X at *
  generalize MS.covGross σS σE σF ρSF ρEF κE κF t T = C at *
  have hl0' : 0 ≤ level e := unit_nonneg he hlt
  have hθ := kirk_exp_sub_one_le (x := 18 * ℓ + 3 * ω + 4 * level e) (by linarith) (by linarith)
  have hθn : 0 ≤ exp (18 * ℓ + 3 * ω + 4 * level e) - 1 := by
    linarith [one_le_exp (by linarith : 0 ≤ 18 * ℓ + 3 * ω + 4 * level e)]
  have h39 := kirk_exp_sub_one_le (x := 39 * level e) (by linarith) (by linarith)
  have h39n : 0 ≤ exp (39 * level e) - 1 := by linarith [one_le_exp (by linarith : 0 ≤ 39 * level e)]
  have hcc : (exp (18 * ℓ) - 1) * C ≤ 1.1e-12 * 10 := mul_le_mul (by linarith) hc hC0 (by norm_num)
  have hcc0 := mul_nonneg h18n hC0
  have hp := kirk_exp_sub_one_le (x := 5 * level e + (exp (18 * ℓ) - 1) * C) (by linarith) (by linarith)
  have k1 : (exp (18 * ℓ + 3 * ω + 4 * level e) - 1) * X ≤ 7.4e-10 * 50 :=
    mul_le_mul (by linarith) hd hd0 (by norm_num)
  have k0 := mul_nonneg hθn hd0
  have k2 : exp (5 * level e + (exp (18 * ℓ) - 1) * C) ≤ 1 + 1e-10 := by linarith
  have k3 := mul_le_mul k2 (show 1 + (7.5e-8 + (exp (39 * level e) - 1) * 3.25
    + 0.4 * ((exp (18 * ℓ + 3 * ω + 4 * level e) - 1) * X)) ≤ 1 + 9.5e-8 by linarith) (by linarith) (by norm_num)
  have k4 : ((1 : ℝ) + 1e-10) * (1 + 9.5e-8) - 1 ≤ 1e-7 := by norm_num
  linarith

/-- A case: an option on a future with all three volatilities, priced in an arithmetic that rounds every result away. -/
theorem C142_example :
    RoundedT (2⁻¹ ^ 53) (biased (2⁻¹ ^ 53)) ∧ (biased (2⁻¹ ^ 53)).add 1 1 ≠ 2 ∧
    0.09 < MS.variance 0.3 0.2 0.1 0 0 0 1 1 1 1 ∧
    ∀ isCall, |MSFl.price (biased (2⁻¹ ^ 53)) isCall 0.95 95 80 1 1 0.3 0.2 0.1 0 0 0 1 1
        - 0.95 * bsPrice isCall (95 * exp (-MS.covariance 0.3 0.2 0.1 0 0 0 1 1 1 1)) 80 1 0 0
          (√(MS.variance 0.3 0.2 0.1 0 0 0 1 1 1 1))|
      ≤ 1e-7 * (|0.95| * (95 * exp (-MS.covariance 0.3 0.2 0.1 0 0 0 1 1 1 1) + 80)) := by
  obtain ⟨hA, hb, -⟩ := C100_example
  have x1 := exp_neg_one_gt_d9
  have x2 := exp_neg_one_lt_d9
  have y1 : exp (-1 : ℝ) * exp 1 = 1 := by rw [← exp_add]; norm_num
  have y2 : exp (-2 : ℝ) = exp (-1) ^ 2 := by rw [← exp_nat_mul]; norm_num
  have y3 : exp (2 : ℝ) = exp 1 ^ 2 := by rw [← exp_nat_mul]; norm_num
  have y4 : exp (-1 : ℝ) ^ 2 * exp 1 ^ 2 = 1 := by rw [← mul_pow, y1, one_pow]
  have hvar : MS.variance 0.3 0.2 0.1 0 0 0 1 1 1 1
      = 0.09 + 0.05 * (-1 / 2 + 2 * exp (-1) - exp (-1) ^ 2 / 2) := by
    rw [variance_eq (by norm_num) (by norm_num) (by norm_num)]
    unfold vzNum
    norm_num only [mul_one, mul_zero, zero_mul, add_zero, zero_add, sub_zero, neg_mul, one_mul, one_pow, div_one]
    rw [y2, y3]
    linear_combination 0.025 * y4 - 0.1 * y1
  set x := exp (-1 : ℝ) with hx
  have hxs : x ^ 2 ≤ 0.14 := by nlinarith
  have hv : 0.09 < MS.variance 0.3 0.2 0.1 0 0 0 1 1 1 1 := by rw [hvar]; nlinarith
  have hv2 : MS.variance 0.3 0.2 0.1 0 0 0 1 1 1 1 ≤ 0.2 := by rw [hvar]; nlinarith
  have hc : MS.covGross 0.3 0.2 0.1 0 0 1 1 1 1 ≤ 1 := by
    unfold MS.covGross
    norm_num only [mul_one, mul_zero, zero_mul, add_zero, zero_add, sub_zero, neg_mul, one_mul, one_pow, div_one,
      abs_zero, abs_one, abs_of_pos]
    rw [← hx]
    nlinarith
  refine ⟨hA, hb, hv, fun isCall => ?_⟩
  refine C142_double hA (by positivity) le_rfl (by norm_num) (by norm_num) (by norm_num) (by norm_num) (by norm_num)
    (by linarith) (by norm_num) ?_ (by linarith) ?_ isCall
  · unfold MS.varGross
    norm_num only [mul_one, mul_zero, zero_mul, add_zero, zero_add, sub_zero, neg_mul, one_mul, one_pow, div_one,
      abs_zero, abs_one, abs_of_pos]
    rw [y2, y3, ← hx]
    nlinarith
  · unfold msCond
    have hs : 0.3 ≤ √(MS.variance 0.3 0.2 0.1 0 0 0 1 1 1 1) := le_sqrt_of_sq_le (by linarith)
    have hlog : |log (95 / 80 : ℝ)| ≤ 1 := by
      have h1 := log_nonneg (by norm_num : (1 : ℝ) ≤ 95 / 80)
      have h2 := log_le_sub_one_of_pos (by norm_num : (0 : ℝ) < 95 / 80)
      rw [abs_of_nonneg h1]; linarith
    rw [div_le_iff₀ (by linarith)]
    linarith

end Verif.Props
