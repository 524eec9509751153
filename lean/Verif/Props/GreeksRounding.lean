import Verif.Lemmas.GreeksRounding
import Verif.Props.GBSRounding

/-! C141: rounding errors of the analytic greeks of `GBSOption`. -/
namespace Verif.Props
open Spec Real

variable {e S K t r b σ : ℝ} {A : ArithT}

/-- C141. In exact arithmetic the greeks are those of the real-number model. -/
theorem C141_exact (isCall : Bool) (S K t r b σ : ℝ) :
    (GBS.new S K t r b (some σ)).delta isCall = .ok (GreeksFl.delta ArithT.exact S K t r b σ isCall) ∧
    (GBS.new S K t r b (some σ)).theta isCall = .ok (GreeksFl.theta ArithT.exact S K t r b σ isCall) ∧
    (GBS.new S K t r b (some σ)).vega = .ok (GreeksFl.vega ArithT.exact S K t r b σ) ∧
    (GBS.new S K t r b (some σ)).rho isCall = .ok (GreeksFl.rho ArithT.exact S K t r b σ isCall) ∧
    (GBS.new S K t r b (some σ)).lamb isCall = .ok (GreeksFl.lamb ArithT.exact S K t r b σ isCall) ∧
    (GBS.new S K t r b (some σ)).gamma = .ok (GreeksFl.gamma ArithT.exact S K t r b σ) ∧
    (GBS.new S K t r b (some σ)).cOfC isCall = .ok (GreeksFl.cOfC ArithT.exact S K t r b σ isCall) := by
  have hcnd : ∀ x, GBSFl.cnd ArithT.exact x = CND x := by
    intro x
    simp only [GBSFl.cnd, GBSFl.ndf, GBSFl.cndPoly, GBSFl.cndK, ArithT.exact, Arith.exact, id, CND, NDF,
      cndPoly, Verif.cndK]
  have hndf : ∀ x, GBSFl.ndf ArithT.exact x = NDF x := fun x => rfl
  have hp := fun c => C100_exact c S K t r b σ
  have hpc := hp true
  have hpp := hp false
  simp only [GBS.price, if_true, Bool.false_eq_true, if_false] at hpc hpp
  refine ⟨?_, ?_, ?_, ?_, ?_, ?_, ?_⟩
  · cases isCall <;> simp only [GreeksFl.delta, hcnd, if_true, Bool.false_eq_true, if_false] <;> rfl
  · cases isCall <;>
      simp only [GreeksFl.theta, GreeksFl.theta1, hcnd, hndf, if_true, Bool.false_eq_true, if_false] <;> rfl
  · simp only [GreeksFl.vega, hndf]; rfl
  · by_cases hb : b = 0
    · subst hb
      cases isCall
      · simp only [GBS.rho, hpp, GreeksFl.rho]
        simp [GBS.new, GBS.checkSigma, bind, Except.bind, pure, Except.pure, ArithT.exact, Arith.exact]
      · simp only [GBS.rho, hpc, GreeksFl.rho]
        simp [GBS.new, GBS.checkSigma, bind, Except.bind, pure, Except.pure, ArithT.exact, Arith.exact]
    · cases isCall
      · have k : (GBS.new S K t r b (some σ)).rho false = .ok (-t * K * exp (-r * t)
            * CND (-GBS.d2Expr (GBS.d1Expr S K t b σ) σ t)) := by
          simp only [GBS.rho, hpp]
          simp [GBS.new, GBS.checkSigma, GBS.attr, bind, Except.bind, pure, Except.pure, hb]
        rw [k]
        simp only [GreeksFl.rho, hcnd, hb, ne_eq, not_false_eq_true, if_true, Bool.false_eq_true, if_false]
        rfl
      · have k : (GBS.new S K t r b (some σ)).rho true = .ok (t * K * exp (-r * t)
            * CND (GBS.d2Expr (GBS.d1Expr S K t b σ) σ t)) := by
          simp only [GBS.rho, hpc]
          simp [GBS.new, GBS.checkSigma, GBS.attr, bind, Except.bind, pure, Except.pure, hb]
        rw [k]
        simp only [GreeksFl.rho, hcnd, hb, ne_eq, not_false_eq_true, if_true, Bool.false_eq_true, if_false]
        rfl
  · cases isCall
    · simp only [GBS.lamb, hpp, GreeksFl.lamb, hcnd]
      rfl
    · simp only [GBS.lamb, hpc, GreeksFl.lamb, hcnd]
      rfl
  · simp only [GreeksFl.gamma, hndf]; rfl
  · cases isCall <;> simp only [GreeksFl.cOfC, hcnd, if_true, Bool.false_eq_true, if_false] <;> rfl

section
variable (hA : RoundedT e A) (he : 0 ≤ e) (he1 : e < 1) (h : Valid S K t σ)
include hA he he1 h

omit hA h in
private theorem gr_L : 0 ≤ -Real.log (1 - e) := by
  have := log_nonpos (by linarith) (by linarith : 1 - e ≤ 1)
  linarith

/-- C141. Delta in rounded arithmetic against the derivative of the exact price in the spot. -/
theorem C141_delta (r b : ℝ) (isCall : Bool) :
    ∃ d, HasDerivAt (fun s => bsPrice isCall s K t r b σ) d S ∧
      |GreeksFl.delta A S K t r b σ isCall - d|
        ≤ greekErr 7.5e-8 e S K t r b σ * exp ((b - r) * t) := by
  have hL := gr_L he he1
  have hd := deriv_call_S (r := r) (b := b) h.S h.K h.t h.σ
  have e1 := d1_err' hA he he1 (b := b) h.S h.K h.t h.σ
  have c := (greek_carry hA he he1 r b h.t).err
  rw [abs_of_pos (exp_pos _)] at c
  cases isCall
  · refine ⟨exp ((b - r) * t) * (Φ (D1 S K t b σ) - 1), ?_, ?_⟩
    · simp only [bsPrice, Bool.false_eq_true, if_false, bsPut_eq_call h.t.le]
      have h2 := ((hasDerivAt_id S).mul_const (exp ((b - r) * t))).sub_const (K * exp (-r * t))
      exact HasDerivAt.congr_deriv (HasDerivAt.sub hd h2) (by ring)
    · have m := (c.mul (greek_cnd_sub hA he he1 e1)).round' he he1 (hA.mul _ _)
      rw [mul_one] at m
      exact greek_fin he he1 (by norm_num) e1.nonneg (by linarith) m
  · refine ⟨_, hd, ?_⟩
    have m := (c.mul (greek_cnd hA he he1 e1)).round' he he1 (hA.mul _ _)
    rw [mul_one] at m
    exact greek_fin he he1 (by norm_num) e1.nonneg (by linarith) m

/-- C141. Gamma in rounded arithmetic against the second derivative of the exact price in the spot. There
is no approximation error. -/
theorem C141_gamma (r b : ℝ) (isCall : Bool) :
    ∃ d, HasDerivAt (fun s => deriv (fun s' => bsPrice isCall s' K t r b σ) s) d S ∧
      |GreeksFl.gamma A S K t r b σ - d|
        ≤ greekErr 0 e S K t r b σ * (0.4 * exp ((b - r) * t) / (S * σ * √t)) := by
  have hL := gr_L he he1
  have hS := h.S; have hσ := h.σ
  have hs : 0 < √t := sqrt_pos.2 h.t
  obtain ⟨g, hg, hd⟩ := C03_gamma h r b isCall
  have hg' : g = exp ((b - r) * t) * φ (D1 S K t b σ) / (S * σ * √t) := by
    simp only [GBS.gamma, GBS.new, GBS.checkSigma, GBS.attr, bind, Except.bind, pure, Except.pure,
      NDF_eq] at hg
    injection hg with hg
    exact hg.symm
  refine ⟨g, hd, ?_⟩
  have e1 := d1_err' hA he he1 (b := b) h.S h.K h.t h.σ
  have c := (greek_carry hA he he1 r b h.t).err
  rw [abs_of_pos (exp_pos _)] at c
  have m := (c.mul (greek_ndf hA he he1 le_rfl e1)).round' he he1 (hA.mul _ _)
  have q1 : Rel (-Real.log (1 - e)) (A.mul S σ) (S * σ) := Rel.of_round he he1 (hA.mul _ _)
  have q2 := (q1.mul (greek_sqrt hA he he1 t)).round he he1 (hA.mul _ _)
  have n := m.mul q2.inv.err
  rw [← div_eq_mul_inv, ← div_eq_mul_inv, abs_of_pos (by positivity : 0 < (S * σ * √t)⁻¹)] at n
  have w := n.round' he he1 (hA.div _ _)
  rw [hg', show 0.4 * exp ((b - r) * t) / (S * σ * √t)
    = exp ((b - r) * t) * 0.4 * (S * σ * √t)⁻¹ by rw [div_eq_mul_inv]; ring]
  exact greek_fin he he1 le_rfl e1.nonneg (by linarith) w

/-- C141. Vega in rounded arithmetic against the derivative of the exact price in the volatility. There is
no approximation error. -/
theorem C141_vega (r b : ℝ) (isCall : Bool) :
    ∃ d, HasDerivAt (fun s => bsPrice isCall S K t r b s) d σ ∧
      |GreeksFl.vega A S K t r b σ - d|
        ≤ greekErr 0 e S K t r b σ * (0.4 * S * exp ((b - r) * t) * √t) := by
  have hL := gr_L he he1
  have hS := h.S
  have hs : 0 < √t := sqrt_pos.2 h.t
  obtain ⟨g, hg, hd⟩ := C03_vega h r b isCall
  have hg' : g = S * exp ((b - r) * t) * φ (D1 S K t b σ) * √t := by
    simp only [GBS.vega, GBS.new, GBS.checkSigma, GBS.attr, bind, Except.bind, pure, Except.pure,
      NDF_eq] at hg
    injection hg with hg
    exact hg.symm
  refine ⟨g, hd, ?_⟩
  have e1 := d1_err' hA he he1 (b := b) h.S h.K h.t h.σ
  have c := (((Rel.rfl' (y := S)).mul (greek_carry hA he he1 r b h.t)).round he he1 (hA.mul _ _)).err
  rw [abs_of_pos (by positivity : 0 < S * exp ((b - r) * t))] at c
  have m := (c.mul (greek_ndf hA he he1 le_rfl e1)).round' he he1 (hA.mul _ _)
  have n := (m.mul (greek_sqrt hA he he1 t).err).round' he he1 (hA.mul _ _)
  rw [abs_of_pos hs] at n
  rw [hg', show 0.4 * S * exp ((b - r) * t) * √t = S * exp ((b - r) * t) * 0.4 * √t by ring]
  exact greek_fin he he1 le_rfl e1.nonneg (by linarith) n

/-- C141. Theta in rounded arithmetic against minus the derivative of the exact price in the time to
expiry. -/
theorem C141_theta (r b : ℝ) (isCall : Bool) :
    ∃ d, HasDerivAt (fun u => bsPrice isCall S K u r b σ) d t ∧
      |GreeksFl.theta A S K t r b σ isCall - -d|
        ≤ greekErr 7.5e-8 e S K t r b σ * (0.4 * S * exp ((b - r) * t) * σ / (2 * √t)
          + |b - r| * S * exp ((b - r) * t) + |r| * K * exp (-r * t)) := by
  have hL := gr_L he he1
  have hS := h.S; have hK := h.K; have hσ := h.σ
  have hs : 0 < √t := sqrt_pos.2 h.t
  have hd := deriv_call_t (r := r) (b := b) h.S h.K h.t h.σ
  have e1 := d1_err' hA he he1 (b := b) h.S h.K h.t h.σ
  have e2 := d2_err hA he he1 (b := b) h.S h.K h.t h.σ
  have cr := greek_carry hA he he1 r b h.t
  have ds := greek_disc hA he he1 r b h.t
  set R := (exp (2 * -Real.log (1 - e)) - 1) * ((|b| + |r|) * t) with hR
  set Q := probLevel e 7.5e-8 (dCond S K t b σ) with hQ
  have hR0 : 0 ≤ R := by
    have := one_le_exp (by linarith : 0 ≤ 2 * -Real.log (1 - e))
    have := h.t
    rw [hR]; exact mul_nonneg (by linarith) (by positivity)
  have hQ0 : 0 ≤ Q := log_nonneg (probLevel_pos he he1 (by norm_num) e1.nonneg)
  -- the first term
  have c := (((Rel.rfl' (y := S)).mul cr).round he he1 (hA.mul _ _)).err
  rw [abs_of_pos (by positivity : 0 < S * exp ((b - r) * t))] at c
  have m := (c.mul (greek_ndf hA he he1 (a := 7.5e-8) (by norm_num) e1)).round' he he1 (hA.mul _ _)
  have m2 := ((m.mul (Rel.rfl' (y := σ)).err).round' he he1 (hA.mul _ _)).neg
  have q2 := ((Rel.rfl' (y := (2 : ℝ))).mul (greek_sqrt hA he he1 t)).round he he1 (hA.mul _ _)
  have n := m2.mul q2.inv.err
  rw [← div_eq_mul_inv, ← div_eq_mul_inv, abs_of_pos (by positivity : 0 < (2 * √t)⁻¹), abs_of_pos hσ] at n
  have T1 := (n.round' he he1 (hA.div _ _)).mono (θ' := 8 * -Real.log (1 - e) + R + Q) (by linarith)
  have hB1 : S * exp ((b - r) * t) * 0.4 * σ * (2 * √t)⁻¹
      = 0.4 * S * exp ((b - r) * t) * σ / (2 * √t) := by rw [div_eq_mul_inv]; ring
  rw [hB1] at T1
  -- the coefficients of the other terms
  have p1 : Rel (-Real.log (1 - e)) (A.sub b r) (b - r) := Rel.of_round he he1 (hA.sub _ _)
  have p2 := (p1.mul (Rel.rfl' (y := S))).round he he1 (hA.mul _ _)
  have p3 := ((p2.mul cr).round he he1 (hA.mul _ _)).err
  rw [abs_mul, abs_mul, abs_of_pos hS, abs_of_pos (exp_pos _)] at p3
  have s1 : Rel (-Real.log (1 - e)) (A.mul r K) (r * K) := Rel.of_round he he1 (hA.mul _ _)
  have s2 := ((s1.mul ds).round he he1 (hA.mul _ _)).err
  rw [abs_mul, abs_mul, abs_of_pos hK, abs_of_pos (exp_pos _)] at s2
  have T2 : ∀ {x' x : ℝ}, Err (9 * -Real.log (1 - e)) x' x (dCond S K t b σ) →
      Err (8 * -Real.log (1 - e) + R + Q)
        (A.mul (A.mul (A.mul (A.sub b r) S) (GreeksFl.carry A t r b)) (GBSFl.cnd A x'))
        ((b - r) * S * exp ((b - r) * t) * Φ x) (|b - r| * S * exp ((b - r) * t)) := by
    intro x' x hx
    have := (p3.mul (greek_cnd hA he he1 hx)).round' he he1 (hA.mul _ _)
    rw [mul_one] at this
    exact this.mono (by linarith)
  have T3 : ∀ {x' x : ℝ}, Err (9 * -Real.log (1 - e)) x' x (dCond S K t b σ) →
      Err (9 * -Real.log (1 - e) + R + Q)
        (A.mul (A.mul (A.mul r K) (GreeksFl.disc A t r)) (GBSFl.cnd A x'))
        (r * K * exp (-r * t) * Φ x) (|r| * K * exp (-r * t)) := by
    intro x' x hx
    have := (s2.mul (greek_cnd hA he he1 hx)).round' he he1 (hA.mul _ _)
    rw [mul_one] at this
    exact this.mono (by linarith)
  cases isCall
  · have hA' : HasDerivAt (fun u => S * exp ((b - r) * u)) (S * (exp ((b - r) * t) * ((b - r) * 1))) t :=
      ((hasDerivAt_id t).const_mul (b - r)).exp.const_mul S
    have hB' : HasDerivAt (fun u => K * exp (-r * u)) (K * (exp (-r * t) * (-r * 1))) t :=
      ((hasDerivAt_id t).const_mul (-r)).exp.const_mul K
    refine ⟨((b - r) * S * exp ((b - r) * t) * Φ (D1 S K t b σ)
        + r * K * exp (-r * t) * Φ (D1 S K t b σ - σ * √t)
        + S * exp ((b - r) * t) * φ (D1 S K t b σ) * (σ / (2 * √t)))
        - (S * (exp ((b - r) * t) * ((b - r) * 1)) - K * (exp (-r * t) * (-r * 1))), ?_, ?_⟩
    · refine (hd.sub (hA'.sub hB')).congr_of_eventuallyEq ?_
      filter_upwards [lt_mem_nhds h.t] with u hu
      simp only [bsPrice, Bool.false_eq_true, if_false, bsPut_eq_call hu.le, Pi.sub_apply]
    · have u := (T1.add (T2 e1.neg)).round' he he1 (hA.add _ _)
      have v := ((u.mono (by linarith)).add (T3 e2.neg)).round' he he1 (hA.add _ _)
      have f1 := Φ_add_Φ_neg (D1 S K t b σ)
      have f2 := Φ_add_Φ_neg (D1 S K t b σ - σ * √t)
      have := greek_fin he he1 (r := r) (a := 7.5e-8) (by norm_num) e1.nonneg (by linarith) v
      refine le_of_eq_of_le ?_ this
      congr 1
      simp only [GreeksFl.theta, GreeksFl.theta1, Bool.false_eq_true, if_false]
      congr 1
      unfold D1 at f1 f2 ⊢
      rw [show Φ (-GBS.d1Expr S K t b σ) = 1 - Φ (GBS.d1Expr S K t b σ) by linarith,
        show Φ (-(GBS.d1Expr S K t b σ - σ * √t)) = 1 - Φ (GBS.d1Expr S K t b σ - σ * √t) by linarith]
      ring
  · refine ⟨_, hd, ?_⟩
    have u := (T1.sub (T2 e1)).round' he he1 (hA.sub _ _)
    have v := ((u.mono (by linarith)).sub (T3 e2)).round' he he1 (hA.sub _ _)
    have := greek_fin he he1 (r := r) (a := 7.5e-8) (by norm_num) e1.nonneg (by linarith) v
    refine le_of_eq_of_le ?_ this
    congr 1
    simp only [GreeksFl.theta, GreeksFl.theta1, if_true]
    congr 1
    unfold D1
    ring

/-- C141. Rho for `b ≠ 0` in rounded arithmetic against the derivative of the exact price when `r` and `b`
move together. -/
theorem C141_rho (r b : ℝ) (hb : b ≠ 0) (isCall : Bool) :
    ∃ d, HasDerivAt (fun v => bsPrice isCall S K t (r + v) (b + v) σ) d 0 ∧
      |GreeksFl.rho A S K t r b σ isCall - d|
        ≤ greekErr 7.5e-8 e S K t r b σ * (t * K * exp (-r * t)) := by
  have hL := gr_L he he1
  have hK := h.K; have ht := h.t
  have hd := deriv_call_rb (r := r) (b := b) h.S h.K h.t h.σ
  have e2 := d2_err hA he he1 (b := b) h.S h.K h.t h.σ
  have ds := greek_disc hA he he1 r b h.t
  cases isCall
  · have hB' : HasDerivAt (fun v => K * exp (-(r + v) * t)) (K * (exp (-(r + 0) * t) * (-1 * t))) 0 :=
      (((hasDerivAt_id (0:ℝ)).const_add r).neg.mul_const t).exp.const_mul K
    refine ⟨t * K * exp (-r * t) * (Φ (D1 S K t b σ - σ * √t) - 1), ?_, ?_⟩
    · refine HasDerivAt.congr_deriv ((hd.sub (hB'.const_sub (S * exp ((b - r) * t)))).congr_of_eventuallyEq
        (Filter.Eventually.of_forall fun v => ?_)) (by simp only [add_zero]; ring)
      simp only [bsPrice, Bool.false_eq_true, if_false, bsPut_eq_call h.t.le, Pi.sub_apply]
      rw [show (b + v - (r + v)) * t = (b - r) * t by ring]
    · have s1 : Rel (-Real.log (1 - e)) (A.mul (-t) K) (-t * K) := Rel.of_round he he1 (hA.mul _ _)
      have s2 := ((s1.mul ds).round he he1 (hA.mul _ _)).err
      rw [abs_mul, abs_mul, abs_neg, abs_of_pos ht, abs_of_pos hK, abs_of_pos (exp_pos _)] at s2
      have m := (s2.mul (greek_cnd hA he he1 e2.neg)).round' he he1 (hA.mul _ _)
      rw [mul_one] at m
      have f2 := Φ_add_Φ_neg (D1 S K t b σ - σ * √t)
      have := greek_fin he he1 (r := r) (a := 7.5e-8) (by norm_num) e2.nonneg (by linarith) m
      refine le_of_eq_of_le ?_ this
      simp only [GreeksFl.rho, hb, ne_eq, not_false_eq_true, if_true, Bool.false_eq_true, if_false]
      congr 2
      unfold D1 at f2 ⊢
      linear_combination t * K * exp (-r * t) * f2
  · refine ⟨_, hd, ?_⟩
    have s1 : Rel (-Real.log (1 - e)) (A.mul t K) (t * K) := Rel.of_round he he1 (hA.mul _ _)
    have s2 := ((s1.mul ds).round he he1 (hA.mul _ _)).err
    rw [abs_mul, abs_mul, abs_of_pos ht, abs_of_pos hK, abs_of_pos (exp_pos _)] at s2
    have m := (s2.mul (greek_cnd hA he he1 e2)).round' he he1 (hA.mul _ _)
    rw [mul_one] at m
    have := greek_fin he he1 (r := r) (a := 7.5e-8) (by norm_num) e2.nonneg (by linarith) m
    refine le_of_eq_of_le ?_ this
    simp only [GreeksFl.rho, hb, ne_eq, not_false_eq_true, if_true]

/-- C141. `c_of_c` in rounded arithmetic against the derivative of the exact price in the cost of carry. -/
theorem C141_c_of_c (r b : ℝ) (isCall : Bool) :
    ∃ d, HasDerivAt (fun b' => bsPrice isCall S K t r b' σ) d b ∧
      |GreeksFl.cOfC A S K t r b σ isCall - d|
        ≤ greekErr 7.5e-8 e S K t r b σ * (t * S * exp ((b - r) * t)) := by
  have hL := gr_L he he1
  have hS := h.S; have ht := h.t
  have hd := deriv_call_b (r := r) (b := b) h.S h.K h.t h.σ
  have e1 := d1_err' hA he he1 (b := b) h.S h.K h.t h.σ
  have cr := greek_carry hA he he1 r b h.t
  cases isCall
  · have hA' : HasDerivAt (fun b' => S * exp ((b' - r) * t)) (S * (exp ((b - r) * t) * (1 * t))) b :=
      (((hasDerivAt_id b).sub_const r).mul_const t).exp.const_mul S
    refine ⟨t * S * exp ((b - r) * t) * (Φ (D1 S K t b σ) - 1), ?_, ?_⟩
    · refine HasDerivAt.congr_deriv ((hd.sub (hA'.sub_const (K * exp (-r * t)))).congr_of_eventuallyEq
        (Filter.Eventually.of_forall fun v => ?_)) (by ring)
      simp only [bsPrice, Bool.false_eq_true, if_false, bsPut_eq_call h.t.le, Pi.sub_apply]
    · have s1 : Rel (-Real.log (1 - e)) (A.mul (-t) S) (-t * S) := Rel.of_round he he1 (hA.mul _ _)
      have s2 := ((s1.mul cr).round he he1 (hA.mul _ _)).err
      rw [abs_mul, abs_mul, abs_neg, abs_of_pos ht, abs_of_pos hS, abs_of_pos (exp_pos _)] at s2
      have m := (s2.mul (greek_cnd hA he he1 e1.neg)).round' he he1 (hA.mul _ _)
      rw [mul_one] at m
      have f2 := Φ_add_Φ_neg (D1 S K t b σ)
      have := greek_fin he he1 (r := r) (a := 7.5e-8) (by norm_num) e1.nonneg (by linarith) m
      refine le_of_eq_of_le ?_ this
      simp only [GreeksFl.cOfC, Bool.false_eq_true, if_false]
      congr 2
      unfold D1 at f2 ⊢
      linear_combination t * S * exp ((b - r) * t) * f2
  · refine ⟨_, hd, ?_⟩
    have s1 : Rel (-Real.log (1 - e)) (A.mul t S) (t * S) := Rel.of_round he he1 (hA.mul _ _)
    have s2 := ((s1.mul cr).round he he1 (hA.mul _ _)).err
    rw [abs_mul, abs_mul, abs_of_pos ht, abs_of_pos hS, abs_of_pos (exp_pos _)] at s2
    have m := (s2.mul (greek_cnd hA he he1 e1)).round' he he1 (hA.mul _ _)
    rw [mul_one] at m
    exact greek_fin he he1 (r := r) (a := 7.5e-8) (by norm_num) e1.nonneg (by linarith) m

omit hA he he1 in
/-- The exact price is at most the sum of the discounted legs. -/
theorem abs_bsPrice_le (r b : ℝ) (isCall : Bool) :
    |bsPrice isCall S K t r b σ| ≤ S * exp ((b - r) * t) + K * exp (-r * t) := by
  have hc := bsCall_eq (r := r) (b := b) h.S h.K h.t h.σ
  have hN : 0 < S * exp ((b - r) * t) := mul_pos h.S (exp_pos _)
  have hD : 0 < K * exp (-r * t) := mul_pos h.K (exp_pos _)
  have a0 := Φ_nonneg (D1 S K t b σ)
  have a1 := (Φ_lt_one (D1 S K t b σ)).le
  have c0 := Φ_nonneg (D1 S K t b σ - σ * √t)
  have c1 := (Φ_lt_one (D1 S K t b σ - σ * √t)).le
  have u0 := mul_nonneg hN.le a0
  have u1 := mul_le_mul_of_nonneg_left a1 hN.le
  have v0 := mul_nonneg hD.le c0
  have v1 := mul_le_mul_of_nonneg_left c1 hD.le
  cases isCall
  · have e3 : bsPrice false S K t r b σ = bsPut S K t r b σ := rfl
    rw [e3, bsPut_eq_call h.t.le, hc, abs_le]
    constructor <;> linarith
  · have e3 : bsPrice true S K t r b σ = bsCall S K t r b σ := rfl
    rw [e3, hc, abs_le]
    constructor <;> linarith

omit hA in
theorem priceErr_le_greekErr (r b : ℝ) :
    0 ≤ priceErr e S K t r b σ ∧
    (1 + priceErr e S K t r b σ) * exp (-Real.log (1 - e)) ≤ 1 + greekErr 7.5e-8 e S K t r b σ := by
  have hL := gr_L he he1
  have hS := h.S; have hK := h.K; have ht := h.t; have hσ := h.σ
  have hs : 0 < √t := sqrt_pos.2 ht
  have hX : 0 ≤ dCond S K t b σ := by unfold dCond; positivity
  have h39 := one_le_exp (by linarith : 0 ≤ 39 * -Real.log (1 - e))
  have h2 := one_le_exp (by linarith : 0 ≤ 2 * -Real.log (1 - e))
  have hR : 0 ≤ (exp (2 * -Real.log (1 - e)) - 1) * ((|b| + |r|) * t) :=
    mul_nonneg (by linarith) (by positivity)
  have k1 : 0 ≤ (exp (39 * -Real.log (1 - e)) - 1) * (3.25 + 0.4 * dCond S K t b σ) :=
    mul_nonneg (by linarith) (by linarith)
  have k2 : (exp (39 * -Real.log (1 - e)) - 1) * (3.25 + 0.4 * dCond S K t b σ)
      ≤ (exp (39 * -Real.log (1 - e)) - 1) * (3.25 + dCond S K t b σ) :=
    mul_le_mul_of_nonneg_left (by linarith) (by linarith)
  unfold priceErr greekErr level
  constructor
  · have := one_le_exp (by linarith :
      0 ≤ 4 * -Real.log (1 - e) + (exp (2 * -Real.log (1 - e)) - 1) * ((|b| + |r|) * t))
    nlinarith
  · rw [add_sub_cancel, add_sub_cancel, mul_right_comm, ← exp_add]
    exact mul_le_mul (exp_le_exp.2 (by linarith)) (by linarith) (by linarith) (exp_pos _).le

/-- C141. Rho for `b = 0` in rounded arithmetic against the derivative of the exact price in `r` with `b`
fixed. -/
theorem C141_rho_futures (r : ℝ) (isCall : Bool) :
    ∃ d, HasDerivAt (fun r' => bsPrice isCall S K t r' 0 σ) d r ∧
      |GreeksFl.rho A S K t r 0 σ isCall - d|
        ≤ greekErr 7.5e-8 e S K t r 0 σ * (t * (S * exp (-r * t) + K * exp (-r * t))) := by
  refine ⟨-t * bsPrice isCall S K t r 0 σ, ?_, ?_⟩
  · have e : HasDerivAt (fun r' : ℝ => exp (-r' * t)) (exp (-r * t) * (-1 * t)) r :=
      ((hasDerivAt_id r).neg.mul_const t).exp
    cases isCall
    · simp only [bsPrice, Bool.false_eq_true, if_false, bsPut]
      exact HasDerivAt.congr_deriv (e.mul_const _) (by ring)
    · simp only [bsPrice, if_true, bsCall]
      exact HasDerivAt.congr_deriv (e.mul_const _) (by ring)
  · have ht := h.t
    obtain ⟨p0, p1⟩ := priceErr_le_greekErr he he1 h r 0
    have hp := C100_price hA he he1 h r 0 isCall
    have hb := abs_bsPrice_le h r 0 isCall
    rw [zero_sub] at hp hb
    have q : Err (log (1 + priceErr e S K t r 0 σ)) (GBSFl.price A S K t r 0 σ isCall)
        (bsPrice isCall S K t r 0 σ) (S * exp (-r * t) + K * exp (-r * t)) :=
      ⟨by rw [exp_log (by linarith), add_sub_cancel_left]; exact hp, hb⟩
    have m := (((Rel.rfl' (y := -t)).err.mul q).round' he he1 (hA.mul _ _)).err
    rw [abs_neg, abs_of_pos ht, zero_add, sub_eq_add_neg (log _), exp_add, exp_log (by linarith)] at m
    have hM : 0 ≤ t * (S * exp (-r * t) + K * exp (-r * t)) := mul_nonneg ht.le (q.nonneg)
    have k : GreeksFl.rho A S K t r 0 σ isCall = A.mul (-t) (GBSFl.price A S K t r 0 σ isCall) := by
      simp [GreeksFl.rho]
    rw [k]
    exact m.trans (mul_le_mul_of_nonneg_right (by linarith) hM)

/-- C141. Lambda in rounded arithmetic against the elasticity of the exact price, as long as the error of
the price is smaller than the price. -/
theorem C141_lamb (r b : ℝ) (isCall : Bool)
    (hp : priceErr e S K t r b σ * (S * exp ((b - r) * t) + K * exp (-r * t)) < bsPrice isCall S K t r b σ) :
    ∃ d, HasDerivAt (fun s => bsPrice isCall s K t r b σ) d S ∧
      |GreeksFl.lamb A S K t r b σ isCall - S * d / bsPrice isCall S K t r b σ|
        ≤ ((1 + greekErr 7.5e-8 e S K t r b σ)
            / (1 - priceErr e S K t r b σ * (S * exp ((b - r) * t) + K * exp (-r * t))
                / bsPrice isCall S K t r b σ) - 1)
          * (S * exp ((b - r) * t) / bsPrice isCall S K t r b σ) := by
  have hL := gr_L he he1
  have hS := h.S
  have hd := deriv_call_S (r := r) (b := b) h.S h.K h.t h.σ
  have e1 := d1_err' hA he he1 (b := b) h.S h.K h.t h.σ
  have c := (greek_carry hA he he1 r b h.t).err
  rw [abs_of_pos (exp_pos _)] at c
  have hq := C100_price hA he he1 h r b isCall
  set M := S * exp ((b - r) * t) + K * exp (-r * t) with hM
  have hp0 : 0 < bsPrice isCall S K t r b σ := ((abs_nonneg _).trans hq).trans_lt hp
  have hδ0 : 0 ≤ priceErr e S K t r b σ * M / bsPrice isCall S K t r b σ :=
    div_nonneg ((abs_nonneg _).trans hq) hp0.le
  have hδ1 : priceErr e S K t r b σ * M / bsPrice isCall S K t r b σ < 1 := (div_lt_one hp0).2 hp
  have rp := Rel.of_round hδ0 hδ1 (z := GBSFl.price A S K t r b σ isCall)
    (by rw [abs_of_pos hp0, div_mul_cancel₀ _ hp0.ne']; exact hq)
  have rS := (Rel.rfl' (y := S)).err
  rw [abs_of_pos hS] at rS
  have key : ∀ {u v ϑ : ℝ}, Err ϑ u v 1 → ϑ ≤ probLevel e 7.5e-8 (dCond S K t b σ) + -Real.log (1 - e) →
      |A.div (A.mul (A.mul (GreeksFl.carry A t r b) u) S) (GBSFl.price A S K t r b σ isCall)
        - S * (exp ((b - r) * t) * v) / bsPrice isCall S K t r b σ|
      ≤ ((1 + greekErr 7.5e-8 e S K t r b σ)
            / (1 - priceErr e S K t r b σ * M / bsPrice isCall S K t r b σ) - 1)
          * (S * exp ((b - r) * t) / bsPrice isCall S K t r b σ) := by
    intro u v ϑ hu hϑ
    have m := (c.mul hu).round' he he1 (hA.mul _ _)
    have m2 := (m.mul rS).round' he he1 (hA.mul _ _)
    have n := m2.mul rp.inv.err
    rw [← div_eq_mul_inv, ← div_eq_mul_inv, abs_of_pos (inv_pos.2 hp0)] at n
    have w := ((n.round' he he1 (hA.div _ _)).mono
      (θ' := (10 * -Real.log (1 - e) + (exp (2 * -Real.log (1 - e)) - 1) * ((|b| + |r|) * t)
        + probLevel e 7.5e-8 (dCond S K t b σ))
        + -Real.log (1 - priceErr e S K t r b σ * M / bsPrice isCall S K t r b σ)) (by linarith)).err
    rw [exp_add, exp_add, exp_probLevel he he1 (by norm_num) e1.nonneg, exp_neg, exp_log (by linarith),
      ← div_eq_mul_inv] at w
    have g : 1 + greekErr 7.5e-8 e S K t r b σ = exp (10 * -Real.log (1 - e)
        + (exp (2 * -Real.log (1 - e)) - 1) * ((|b| + |r|) * t))
        * (1 + (7.5e-8 + (exp (39 * -Real.log (1 - e)) - 1) * (3.25 + dCond S K t b σ))) := by
      unfold greekErr level; ring
    rw [g]
    refine le_of_eq_of_le ?_ (w.trans (le_of_eq ?_))
    · congr 2; ring
    · rw [mul_one, div_eq_mul_inv (S * _)]; ring
  cases isCall
  · refine ⟨exp ((b - r) * t) * (Φ (D1 S K t b σ) - 1), ?_, ?_⟩
    · simp only [bsPrice, Bool.false_eq_true, if_false, bsPut_eq_call h.t.le]
      have h2 := ((hasDerivAt_id S).mul_const (exp ((b - r) * t))).sub_const (K * exp (-r * t))
      exact HasDerivAt.congr_deriv (HasDerivAt.sub hd h2) (by ring)
    · exact key (greek_cnd_sub hA he he1 e1) le_rfl
  · exact ⟨_, hd, key (greek_cnd hA he he1 e1) (by linarith)⟩

end

private theorem gr_level_le (he : 0 ≤ e) (he2 : e ≤ 1 / 2) : level e ≤ 2 * e := by
  unfold level
  have h1 : (0 : ℝ) < 1 - e := by linarith
  have := one_sub_inv_le_log_of_pos h1
  have h2 : (1 - e)⁻¹ ≤ 1 + 2 * e := by
    rw [inv_le_iff_one_le_mul₀ h1]; nlinarith
  linarith

private theorem gr_exp_le {x : ℝ} (h0 : 0 ≤ x) (h1 : x ≤ 1 / 2) : exp x - 1 ≤ 2 * x := by
  have := abs_exp_sub_one_le (x := x) (by rw [abs_of_nonneg h0]; linarith)
  rw [abs_of_nonneg (by linarith [one_le_exp h0]), abs_of_nonneg h0] at this
  exact this

/-- C141. In double precision rounding adds at most `3·10⁻⁹` to the error of any greek, unless the
parameters are extreme. -/
theorem C141_double {a : ℝ} (he : 0 ≤ e) (he1 : e ≤ 2⁻¹ ^ 53) (h : Valid S K t σ) (ha : 0 ≤ a)
    (ha1 : a ≤ 1e-7) (hd : dCond S K t b σ ≤ 10 ^ 5) (hr : (|b| + |r|) * t ≤ 1000) :
    greekErr a e S K t r b σ ≤ a + 3e-9 := by
  have hS := h.S; have hK := h.K; have ht := h.t; have hσ := h.σ
  have he53 : e ≤ 1.2e-16 := he1.trans (by norm_num)
  have hl := gr_level_le he (by linarith)
  have hl0 : 0 ≤ level e := by
    unfold level
    have := log_nonpos (by linarith) (by linarith : 1 - e ≤ 1)
    linarith
  have hL : level e ≤ 2.4e-16 := by linarith
  have h39 := gr_exp_le (x := 39 * level e) (by linarith) (by linarith)
  have h2 := gr_exp_le (x := 2 * level e) (by linarith) (by linarith)
  have h39n := one_le_exp (by linarith : 0 ≤ 39 * level e)
  have h2n := one_le_exp (by linarith : 0 ≤ 2 * level e)
  have hs : 0 < √t := sqrt_pos.2 ht
  have hX : 0 ≤ dCond S K t b σ := by unfold dCond; positivity
  have hr0 : 0 ≤ (|b| + |r|) * t := by positivity
  unfold greekErr
  set R := (|b| + |r|) * t
  set X := dCond S K t b σ
  set E2 := exp (2 * level e) - 1
  set E39 := exp (39 * level e) - 1
  have k1 : E2 * R ≤ 1e-12 := by
    have : E2 ≤ 9.6e-16 := by linarith
    nlinarith
  have E2n : 0 ≤ E2 := by simp only [E2]; linarith
  have E39n : 0 ≤ E39 := by simp only [E39]; linarith
  have k1n : 0 ≤ E2 * R := mul_nonneg E2n hr0
  have k2 : E39 * (3.25 + X) ≤ 2e-9 := by
    have : E39 ≤ 1.9e-14 := by linarith
    nlinarith
  have k2n : 0 ≤ E39 * (3.25 + X) := mul_nonneg E39n (by linarith)
  have k3 := gr_exp_le (x := 10 * level e + E2 * R) (by linarith) (by linarith)
  set Q := exp (10 * level e + E2 * R)
  have k4 : Q ≤ 1 + 1e-11 := by linarith
  nlinarith

/-- C141, a case: for the documented example `GBSOption(10, 8, 1, 0.02, 0.01, 0.1)` and the biased double
arithmetic of `C100_example` the hypotheses hold, so delta is right to `7.9e-8` and gamma to `3e-9` of its
scale; and the price is large enough for lambda. -/
theorem C141_example :
    (∃ d, HasDerivAt (fun s => bsPrice true s 8 1 0.02 0.01 0.1) d 10 ∧
      |GreeksFl.delta (biased (2⁻¹ ^ 53)) 10 8 1 0.02 0.01 0.1 true - d|
        ≤ 7.9e-8 * exp ((0.01 - 0.02) * 1)) ∧
    (∃ d, HasDerivAt (fun s => deriv (fun s' => bsPrice true s' 8 1 0.02 0.01 0.1) s) d 10 ∧
      |GreeksFl.gamma (biased (2⁻¹ ^ 53)) 10 8 1 0.02 0.01 0.1 - d|
        ≤ 3e-9 * (0.4 * exp ((0.01 - 0.02) * 1) / (10 * 0.1 * √1))) ∧
    priceErr (2⁻¹ ^ 53) 10 8 1 0.02 0.01 0.1 * (10 * exp ((0.01 - 0.02) * 1) + 8 * exp (-0.02 * 1))
      < bsPrice true 10 8 1 0.02 0.01 0.1 := by
  obtain ⟨hA, _, hd, _⟩ := C100_example
  have hv : Valid 10 8 1 0.1 := ⟨by norm_num, by norm_num, by norm_num, by norm_num⟩
  have e0 : (0 : ℝ) ≤ 2⁻¹ ^ 53 := by positivity
  have e1 : (2⁻¹ : ℝ) ^ 53 < 1 := by norm_num
  have hr : (|(0.01 : ℝ)| + |(0.02 : ℝ)|) * 1 ≤ 1000 := by
    rw [abs_of_pos, abs_of_pos] <;> norm_num
  have g : ∀ a : ℝ, 0 ≤ a → a ≤ 1e-7 → greekErr a (2⁻¹ ^ 53) 10 8 1 0.02 0.01 0.1 ≤ a + 3e-9 :=
    fun a h0 h1 => C141_double e0 le_rfl hv h0 h1 (hd.trans (by norm_num)) hr
  refine ⟨?_, ?_, ?_⟩
  · obtain ⟨d, h1, h2⟩ := C141_delta hA e0 e1 hv 0.02 0.01 true
    refine ⟨d, h1, h2.trans (mul_le_mul_of_nonneg_right ?_ (exp_pos _).le)⟩
    exact (g 7.5e-8 (by norm_num) (by norm_num)).trans (by norm_num)
  · obtain ⟨d, h1, h2⟩ := C141_gamma hA e0 e1 hv 0.02 0.01 true
    refine ⟨d, h1, h2.trans (mul_le_mul_of_nonneg_right ?_ (by positivity))⟩
    exact (g 0 le_rfl (by norm_num)).trans (by norm_num)
  · obtain ⟨_, p1⟩ := priceErr_le_greekErr e0 e1 hv 0.02 0.01
    have p0 := (priceErr_le_greekErr e0 e1 hv 0.02 0.01).1
    have g1 := g 7.5e-8 (by norm_num) (by norm_num)
    have hL : 0 ≤ -Real.log (1 - 2⁻¹ ^ 53) := gr_L e0 e1
    have x1 := one_le_exp hL
    have hpe : priceErr (2⁻¹ ^ 53) 10 8 1 0.02 0.01 0.1 ≤ 1e-7 := by nlinarith
    have b1 : exp ((0.01 - 0.02) * 1) ≤ (1 : ℝ) := exp_le_one_iff.2 (by norm_num)
    have b2 : exp (-0.02 * 1) ≤ (1 : ℝ) := exp_le_one_iff.2 (by norm_num)
    have b3 := add_one_le_exp ((0.01 - 0.02) * 1 : ℝ)
    have hc : (1 : ℝ) ≤ bsPrice true 10 8 1 0.02 0.01 0.1 := by
      have e3 : bsPrice true 10 8 1 0.02 0.01 0.1 = bsCall 10 8 1 0.02 0.01 0.1 := rfl
      have h4 := bsPut_eq_call (S := 10) (K := 8) (t := 1) (r := 0.02) (b := 0.01) (σ := 0.1) (by norm_num)
      have h5 : 0 ≤ bsPut 10 8 1 0.02 0.01 0.1 := by
        unfold bsPut
        exact mul_nonneg (exp_pos _).le (MeasureTheory.integral_nonneg fun z => le_max_right _ _)
      rw [e3]
      linarith
    have : 10 * exp ((0.01 - 0.02) * 1) + 8 * exp (-0.02 * 1) ≤ (18 : ℝ) := by linarith
    have h0 : 0 ≤ 10 * exp ((0.01 - 0.02) * 1) + 8 * exp (-0.02 * 1) := by positivity
    nlinarith

end Verif.Props
