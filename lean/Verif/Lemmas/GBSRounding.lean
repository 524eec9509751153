import Verif.Lemmas.RelErr
import Verif.Lemmas.CNDError
import Verif.Lemmas.CBNDAll
import Verif.Lemmas.BSDeriv

/-! Rounding errors of the normal distribution function and of the price of `GBSOption`. -/
namespace Verif
open Spec Real

section
variable {e : ℝ} {A : ArithT} (hA : RoundedT e A) (he : 0 ≤ e) (he1 : e < 1)
include hA he he1

local notation "L" => (-Real.log (1 - e))

omit hA in
private theorem Lnn : 0 ≤ L := by
  have := log_nonpos (by linarith) (by linarith : 1 - e ≤ 1)
  linarith

/-- The reciprocal `k`. -/
theorem cndK_rel (x : ℝ) : Rel (4 * L) (GBSFl.cndK A x) (cndK x) := by
  have hL := Lnn he he1
  unfold GBSFl.cndK cndK
  have h1 := Rel.of_round he he1 (hA.lit 0.2316419)
  have h2 := (h1.mul (Rel.rfl' (y := |x|))).round he he1 (hA.mul _ _)
  have h3 := (((Rel.rfl' (y := (1 : ℝ))).mono (by linarith : 0 ≤ 2 * L)).add (h2.mono (by linarith))
    zero_le_one (by positivity)).round he he1 (hA.add _ _)
  exact (((Rel.rfl' (y := (1 : ℝ))).div h3).round he he1 (hA.div _ _)).mono (by linarith)

omit hA he he1 in
theorem cndK_mem (x : ℝ) : 0 < cndK x ∧ cndK x ≤ 1 := by
  unfold cndK
  have : (1 : ℝ) ≤ 1 + 0.2316419 * |x| := by
    have := abs_nonneg x; linarith
  exact ⟨by positivity, by rw [div_le_one (by linarith)]; exact this⟩

/-- One term of the polynomial. -/
private theorem termE {k' k c : ℝ} (j : ℕ) (hj : j ≤ 5) (hk : 0 ≤ k) (hk1 : k ≤ 1) (hc : 0 ≤ c)
    (h : Rel (4 * L) k' k) : Err (23 * L) (A.mul (A.lit c) (A.pow k' j)) (c * k ^ j) c := by
  have hL := Lnn he he1
  have h1 := (h.pow j).round he he1 (hA.pow k' j)
  have h2 := ((Rel.of_round he he1 (hA.lit c)).mul h1).round he he1 (hA.mul _ _)
  have hj5 : (j : ℝ) ≤ 5 := by exact_mod_cast hj
  refine (h2.mono (θ' := 23 * L) (by nlinarith)).err.weaken (by linarith) ?_
  rw [abs_of_nonneg (by positivity)]
  exact mul_le_of_le_one_right hc (pow_le_one₀ hk hk1)

private theorem termN {k' k c : ℝ} (j : ℕ) (hj : j ≤ 5) (hk : 0 ≤ k) (hk1 : k ≤ 1) (hc : 0 ≤ c)
    (h : Rel (4 * L) k' k) : Err (23 * L) (A.mul (-A.lit c) (A.pow k' j)) (-c * k ^ j) c := by
  have hL := Lnn he he1
  have h1 := (h.pow j).round he he1 (hA.pow k' j)
  have h2 := ((Rel.of_round he he1 (hA.lit c)).neg.mul h1).round he he1 (hA.mul _ _)
  have hj5 : (j : ℝ) ≤ 5 := by exact_mod_cast hj
  refine (h2.mono (θ' := 23 * L) (by nlinarith)).err.weaken (by linarith) ?_
  rw [abs_mul, abs_neg, abs_of_nonneg hc, abs_of_nonneg (by positivity)]
  exact mul_le_of_le_one_right hc (pow_le_one₀ hk hk1)

/-- The polynomial. -/
theorem cndPoly_err {k' k : ℝ} (hk : 0 ≤ k) (hk1 : k ≤ 1) (h : Rel (4 * L) k' k) :
    Err (27 * L) (GBSFl.cndPoly A k') (cndPoly k) 5.61 := by
  have hL := Lnn he he1
  unfold GBSFl.cndPoly cndPoly
  have t1 : Err (23 * L) (A.mul (A.lit 0.319381530) k') (0.319381530 * k) 0.319381530 := by
    have h2 := ((Rel.of_round he he1 (hA.lit 0.319381530)).mul h).round he he1 (hA.mul _ _)
    refine (h2.mono (θ' := 23 * L) (by linarith)).err.weaken (by linarith) ?_
    rw [abs_of_nonneg (by positivity)]
    exact mul_le_of_le_one_right (by norm_num) hk1
  have t2 := termN hA he he1 (c := 0.356563782) 2 (by norm_num) hk hk1 (by norm_num) h
  have t3 := termE hA he he1 (c := 1.781477937) 3 (by norm_num) hk hk1 (by norm_num) h
  have t4 := termN hA he he1 (c := 1.821255978) 4 (by norm_num) hk hk1 (by norm_num) h
  have t5 := termE hA he he1 (c := 1.330274429) 5 (by norm_num) hk hk1 (by norm_num) h
  have s1 := (t1.add t2).round' he he1 (hA.add _ _)
  have s2 := (s1.add (t3.mono (by linarith))).round' he he1 (hA.add _ _)
  have s3 := (s2.add (t4.mono (by linarith))).round' he he1 (hA.add _ _)
  have s4 := (s3.add (t5.mono (by linarith))).round' he he1 (hA.add _ _)
  exact (s4.mono (by linarith)).weaken (by linarith) (by norm_num)

/-- The density. -/
theorem ndf_err (x : ℝ) : Err (8 * L) (GBSFl.ndf A x) (NDF x) 0.4 := by
  have hL := Lnn he he1
  unfold GBSFl.ndf NDF
  have h1 : Rel L (A.mul (-x) x) (-x * x) := Rel.of_round he he1 (hA.mul _ _)
  have h2 := (h1.div (Rel.rfl' (y := (2 : ℝ)))).round he he1 (hA.div _ _)
  have h3 : Rel (2 * L) (-(A.div (A.mul (-x) x) 2)) (x * x / 2) := by
    have := h2.neg.mono (θ' := 2 * L) (by linarith)
    rwa [show -(-x * x / 2) = x * x / 2 by ring] at this
  have h4 := err_exp_neg (by nlinarith [mul_self_nonneg x]) h3
  rw [neg_neg, show -(x * x / 2) = -x * x / 2 by ring] at h4
  have h5 := h4.round' he he1 (z := A.exp (A.div (A.mul (-x) x) 2))
    (by rw [abs_of_pos (exp_pos _)]; exact hA.exp _)
  have q1 := Rel.of_round he he1 (hA.atan 1)
  have q2 := ((Rel.rfl' (y := (8 : ℝ))).mul q1).round he he1 (hA.mul _ _)
  have q3 := q2.sqrt.round he he1 (z := A.sqrt (A.mul 8 (A.atan 1)))
    (by rw [abs_of_nonneg (sqrt_nonneg _)]; exact hA.sqrt _)
  have q4 : Rel (2 * L) (A.sqrt (A.mul 8 (A.atan 1))) √(8 * arctan 1) := q3.mono (by linarith)
  have r1 := (h5.mul q4.inv.err)
  rw [← div_eq_mul_inv, ← div_eq_mul_inv] at r1
  have r2 := r1.round' he he1 (hA.div _ _)
  refine (r2.mono (by linarith)).weaken (by linarith) ?_
  rw [one_mul, abs_of_nonneg (by positivity), arctan_one,
    inv_le_comm₀ (sqrt_pos.2 (by positivity)) (by norm_num)]
  refine le_sqrt_of_sq_le ?_
  have := pi_gt_d2
  norm_num at this ⊢
  linarith

omit hA he he1 in
theorem abs_npSign (x : ℝ) : |npSign x| ≤ 1 := by
  unfold npSign; split_ifs <;> simp

/-- The distribution function of the code, rounded against exact. -/
theorem cnd_err (x : ℝ) : |GBSFl.cnd A x - CND x| ≤ 3.25 * (exp (39 * L) - 1) := by
  have hL := Lnn he he1
  obtain ⟨k0, k1⟩ := cndK_mem x
  have h1 := ((ndf_err hA he he1 x).mul (cndPoly_err hA he he1 k0.le k1 (cndK_rel hA he he1 x))).round'
    he he1 (hA.mul _ _)
  have c : ∀ θ, 0 ≤ θ → Err θ (0.5 : ℝ) 0.5 0.5 := fun θ h =>
    (Err.rfl' (y := (0.5 : ℝ)) (B := 0.5) (by norm_num)).mono h
  have h2 := (h1.sub (c _ (by linarith))).round' he he1 (hA.sub _ _)
  have h3 := (h2.mul (Err.rfl' (abs_npSign x))).round' he he1 (hA.mul _ _)
  have h4 := ((c _ (by linarith)).sub h3).round' he he1 (hA.sub _ _)
  have h5 := (h4.mono (θ' := 39 * L) (by linarith)).err
  unfold GBSFl.cnd CND
  refine h5.trans ?_
  rw [mul_comm]
  refine mul_le_mul_of_nonneg_right (by norm_num) ?_
  linarith [one_le_exp (by linarith : 0 ≤ 39 * L)]

/-- The volatility term `σ √t`. -/
theorem sigt_rel {σ t : ℝ} : Rel (2 * L) (A.mul σ (A.sqrt t)) (σ * √t) := by
  have h1 := Rel.of_round he he1 (z := A.sqrt t) (x := √t)
    (by rw [abs_of_nonneg (sqrt_nonneg _)]; exact hA.sqrt _)
  exact (((Rel.rfl' (y := σ)).mul h1).round he he1 (hA.mul _ _)).mono (by linarith)

/-- `d1`. -/
theorem d1_err {S K t b σ : ℝ} (hS : 0 < S) (hK : 0 < K) (ht : 0 < t) (hσ : 0 < σ) :
    Err (8 * L) (GBSFl.d1 A S K t b σ) (GBS.d1Expr S K t b σ)
      ((|log (S / K)| + 1 + (|b| + σ ^ 2 / 2) * t) / (σ * √t)) := by
  have hL := Lnn he he1
  unfold GBSFl.d1 GBS.d1Expr
  have hl : Err (2 * L) (A.log (A.div S K)) (log (S / K)) (|log (S / K)| + 1) := by
    obtain ⟨δ, hδ, hx⟩ := Rel.of_round he he1 (hA.div S K)
    have h1 : Err L (log (A.div S K)) (log (S / K)) (|log (S / K)| + 1) := by
      refine ⟨?_, by linarith⟩
      rw [hx, log_mul (by positivity) (exp_pos _).ne', log_exp, add_sub_cancel_left]
      have := add_one_le_exp L
      nlinarith [abs_nonneg (log (S / K))]
    exact (h1.round' he he1 (hA.log _)).mono (by linarith)
  have v1 : Rel L (A.mul σ σ) (σ * σ) := Rel.of_round he he1 (hA.mul _ _)
  have v2 := (v1.div (Rel.rfl' (y := (2 : ℝ)))).round he he1 (hA.div _ _)
  have v3 := (((Err.rfl' (le_refl |b|)).mono (by linarith)).add v2.err).round' he he1 (hA.add _ _)
  have v4 := (v3.mul (Err.rfl' (le_refl |t|))).round' he he1 (hA.mul _ _)
  have n1 := ((hl.mono (by linarith)).add v4).round' he he1 (hA.add _ _)
  have n2 := n1.mul (sigt_rel hA he he1 (σ := σ) (t := t)).inv.err
  rw [← div_eq_mul_inv, ← div_eq_mul_inv] at n2
  have n3 := n2.round' he he1 (hA.div _ _)
  have hs : 0 < √t := sqrt_pos.2 ht
  refine (n3.mono (by linarith)).weaken (by linarith) (le_of_eq ?_)
  rw [abs_of_pos (by positivity : 0 < (σ * √t)⁻¹), abs_of_pos ht,
    abs_of_pos (by positivity : 0 < σ * σ / 2), div_eq_mul_inv]
  ring

/-- `d2`. -/
theorem d2_err {S K t b σ : ℝ} (hS : 0 < S) (hK : 0 < K) (ht : 0 < t) (hσ : 0 < σ) :
    Err (9 * L) (GBSFl.d2 A (GBSFl.d1 A S K t b σ) σ t) (GBS.d1Expr S K t b σ - σ * √t)
      (dCond S K t b σ) := by
  have hL := Lnn he he1
  have hs : 0 < √t := sqrt_pos.2 ht
  have h := ((d1_err hA he he1 (b := b) hS hK ht hσ).sub
    ((sigt_rel hA he he1 (σ := σ) (t := t)).err.mono (by linarith))).round' he he1 (hA.sub _ _)
  rw [abs_of_pos (by positivity : 0 < σ * √t)] at h
  exact h.mono (by linarith)

/-- `d1` in the same form. -/
theorem d1_err' {S K t b σ : ℝ} (hS : 0 < S) (hK : 0 < K) (ht : 0 < t) (hσ : 0 < σ) :
    Err (9 * L) (GBSFl.d1 A S K t b σ) (GBS.d1Expr S K t b σ) (dCond S K t b σ) := by
  have hL := Lnn he he1
  have hs : 0 < √t := sqrt_pos.2 ht
  refine ((d1_err hA he he1 (b := b) hS hK ht hσ).mono (by linarith)).weaken (by linarith) ?_
  unfold dCond
  have : 0 < σ * √t := by positivity
  linarith

omit hA he he1 in
theorem Φ_dist (x y : ℝ) : |Φ x - Φ y| ≤ 0.4 * |x - y| := by
  have key : ∀ x y : ℝ, x ≤ y → |Φ x - Φ y| ≤ 0.4 * |x - y| := by
    intro x y h
    have h1 := Φ_lipschitz h
    have h2 := Φ_strictMono.monotone h
    rw [abs_of_nonpos (by linarith), abs_of_nonpos (by linarith)]
    have h3 : (2.5 : ℝ) ≤ √(2 * π) := by
      refine le_sqrt_of_sq_le ?_
      have := pi_gt_d2
      norm_num at this ⊢
      linarith
    have h4 : (y - x) / √(2 * π) ≤ (y - x) / 2.5 := by
      gcongr
    have h5 : (y - x) / 2.5 = 0.4 * (y - x) := by ring
    linarith
  rcases le_total x y with h | h
  · exact key x y h
  · rw [abs_sub_comm, abs_sub_comm x]; exact key y x h

/-- The rounded distribution function at a rounded argument, against the exact one at the exact argument. -/
theorem cnd_at {x' x X : ℝ} (h : Err (9 * L) x' x X) :
    Err (log (1 + (7.5e-8 + (exp (39 * L) - 1) * (3.25 + 0.4 * X)))) (GBSFl.cnd A x') (Φ x) 1 := by
  have hL := Lnn he he1
  have h39 := one_le_exp (by linarith : 0 ≤ 39 * L)
  have h9 : exp (9 * L) ≤ exp (39 * L) := exp_le_exp.2 (by linarith)
  have hX := h.nonneg
  have hp : 0 < 1 + (7.5e-8 + (exp (39 * L) - 1) * (3.25 + 0.4 * X)) := by
    have : 0 ≤ (exp (39 * L) - 1) * (3.25 + 0.4 * X) := mul_nonneg (by linarith) (by linarith)
    linarith
  refine ⟨?_, by rw [abs_of_nonneg (Φ_nonneg x)]; exact (Φ_lt_one x).le⟩
  rw [exp_log hp, mul_one, add_sub_cancel_left]
  have a := cnd_err hA he he1 x'
  have b := CNDError.CND_error x'
  have c := Φ_dist x' x
  have d := h.err
  calc |GBSFl.cnd A x' - Φ x|
      = |(GBSFl.cnd A x' - CND x') + (CND x' - Φ x') + (Φ x' - Φ x)| := by ring_nf
    _ ≤ |GBSFl.cnd A x' - CND x'| + |CND x' - Φ x'| + |Φ x' - Φ x| := abs_add_three _ _ _
    _ ≤ _ := by nlinarith

/-- A discounted amount. -/
theorem disc_rel {P t c C θ w : ℝ} (ht : 0 < t) (hc : |c| ≤ C) (hw : Rel θ w c) (hθ : θ ≤ L) :
    Rel (2 * L + (exp (2 * L) - 1) * (C * t)) (A.mul P (A.exp (A.mul w t))) (P * exp (c * t)) := by
  have hL := Lnn he he1
  have h1 := ((hw.mul (Rel.rfl' (y := t))).round he he1 (hA.mul _ _)).mono (θ' := 2 * L) (by linarith)
  have h2 := h1.err.err
  rw [abs_mul, abs_of_pos ht] at h2
  have h3 : Rel ((exp (2 * L) - 1) * (C * t)) (exp (A.mul w t)) (exp (c * t)) := by
    refine ⟨A.mul w t - c * t, h2.trans ?_, by rw [← exp_add]; congr 1; ring⟩
    have := one_le_exp (by linarith : 0 ≤ 2 * L)
    gcongr
  have h4 := h3.round he he1 (z := A.exp (A.mul w t)) (by rw [abs_of_pos (exp_pos _)]; exact hA.exp _)
  exact (((Rel.rfl' (y := P)).mul h4).round he he1 (hA.mul _ _)).mono (by linarith)

/-- A difference of two products of an amount and a probability. -/
theorem legs {P P' Q Q' u u' v v' g E : ℝ} (hP : 0 ≤ P') (hQ : 0 ≤ Q') (h1 : Rel g P P') (h2 : Rel g Q Q')
    (h3 : Err E u u' 1) (h4 : Err E v v' 1) :
    Err (g + E + 2 * L) (A.sub (A.mul P u) (A.mul Q v)) (P' * u' - Q' * v') (P' + Q') := by
  have a := (h1.err.mul h3).round' he he1 (hA.mul _ _)
  have c := (h2.err.mul h4).round' he he1 (hA.mul _ _)
  have d := (a.sub c).round' he he1 (hA.sub _ _)
  rw [abs_of_nonneg hP, abs_of_nonneg hQ, mul_one, mul_one] at d
  exact d.mono (by linarith)

/-- The price in rounded arithmetic against the exact value. -/
theorem price_rounding {S K t r b σ : ℝ} (hS : 0 < S) (hK : 0 < K) (ht : 0 < t) (hσ : 0 < σ)
    (isCall : Bool) :
    |GBSFl.price A S K t r b σ isCall - bsPrice isCall S K t r b σ|
      ≤ priceErr e S K t r b σ * (S * exp ((b - r) * t) + K * exp (-r * t)) := by
  have hL := Lnn he he1
  have e1 := d1_err' hA he he1 (b := b) hS hK ht hσ
  have e2 := d2_err hA he he1 (b := b) hS hK ht hσ
  have PS : Rel (2 * L + (exp (2 * L) - 1) * ((|b| + |r|) * t)) (A.mul S (A.exp (A.mul (A.sub b r) t)))
      (S * exp ((b - r) * t)) :=
    disc_rel hA he he1 ht (abs_sub _ _) (Rel.of_round he he1 (hA.sub b r)) le_rfl
  have PK : Rel (2 * L + (exp (2 * L) - 1) * ((|b| + |r|) * t)) (A.mul K (A.exp (A.mul (-r) t)))
      (K * exp (-r * t)) :=
    disc_rel hA he he1 ht (by rw [abs_neg]; linarith [abs_nonneg b]) Rel.rfl' hL
  have hX := e1.nonneg
  have hp : 0 < 1 + (7.5e-8 + (exp (39 * L) - 1) * (3.25 + 0.4 * dCond S K t b σ)) := by
    have h39 := one_le_exp (by linarith : 0 ≤ 39 * L)
    have : 0 ≤ (exp (39 * L) - 1) * (3.25 + 0.4 * dCond S K t b σ) :=
      mul_nonneg (by linarith) (by linarith)
    linarith
  have hc := bsCall_eq (r := r) (b := b) hS hK ht hσ
  have fin : ∀ {x y B : ℝ}, Err (2 * L + (exp (2 * L) - 1) * ((|b| + |r|) * t)
      + log (1 + (7.5e-8 + (exp (39 * L) - 1) * (3.25 + 0.4 * dCond S K t b σ))) + 2 * L) x y B →
      |x - y| ≤ priceErr e S K t r b σ * B := by
    intro x y B h
    refine h.err.trans (le_of_eq ?_)
    congr 1
    unfold priceErr level
    rw [show 2 * L + (exp (2 * L) - 1) * ((|b| + |r|) * t)
      + log (1 + (7.5e-8 + (exp (39 * L) - 1) * (3.25 + 0.4 * dCond S K t b σ))) + 2 * L
      = (4 * L + (exp (2 * L) - 1) * ((|b| + |r|) * t))
        + log (1 + (7.5e-8 + (exp (39 * L) - 1) * (3.25 + 0.4 * dCond S K t b σ))) by ring,
      exp_add, exp_log hp]
  cases isCall
  · have h := fin (legs hA he he1 (by positivity) (by positivity) PK PS (cnd_at hA he he1 e2.neg)
      (cnd_at hA he he1 e1.neg))
    have hb : bsPrice false S K t r b σ = K * exp (-r * t) * Φ (-(GBS.d1Expr S K t b σ - σ * √t))
        - S * exp ((b - r) * t) * Φ (-GBS.d1Expr S K t b σ) := by
      have e3 : bsPrice false S K t r b σ = bsPut S K t r b σ := rfl
      rw [e3, bsPut_eq_call ht.le, hc]
      have f1 := Φ_add_Φ_neg (GBS.d1Expr S K t b σ)
      have f2 := Φ_add_Φ_neg (GBS.d1Expr S K t b σ - σ * √t)
      unfold D1
      linear_combination K * exp (-r * t) * -f2 + S * exp ((b - r) * t) * f1
    rw [hb, add_comm (S * _)]
    exact h
  · have h := fin (legs hA he he1 (by positivity) (by positivity) PS PK (cnd_at hA he he1 e1)
      (cnd_at hA he he1 e2))
    have e3 : bsPrice true S K t r b σ = bsCall S K t r b σ := rfl
    rw [e3, hc]
    exact h

end
end Verif
