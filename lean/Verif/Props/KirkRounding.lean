import Verif.Model.KirkFl
import Verif.Lemmas.GBSRounding
import Verif.Props.Kirk
import Verif.Props.GBSRounding

/-! C139 — `SpreadApproxOption` in floating-point arithmetic. -/
namespace Verif.Props
open Spec Real

/-- **C139.** In exact arithmetic the functions are those of the class. -/
theorem C139_exact (isCall : Bool) (S1 S2 K t r b1 b2 σ1 σ2 ρ Q1 Q2 : ℝ) :
    ∃ a, kirkCls.construct (kirkKw S1 S2 K t r b1 b2 σ1 σ2 ρ Q1 Q2) = (a, none) ∧
      (if isCall then KirkClass.call.run a else KirkClass.put.run a)
        = .ok (.num (KirkFl.price ArithT.exact isCall S1 S2 K t r b1 b2 σ1 σ2 ρ Q1 Q2)) := by
  have hcnd : ∀ x, GBSFl.cnd ArithT.exact x = CND x := by
    intro x
    simp only [GBSFl.cnd, GBSFl.ndf, GBSFl.cndPoly, GBSFl.cndK, ArithT.exact, Arith.exact, id, CND, NDF,
      cndPoly, Verif.cndK]
  obtain ⟨a, h, -, h1⟩ := kirk_prices S1 S2 K t r b1 b2 σ1 σ2 ρ Q1 Q2
  obtain ⟨hc, hp⟩ := h1 _ _ _ _ _ rfl rfl rfl rfl rfl
  have e : ratioVar ρ σ1 (σ2 * share S2 K t r b2 Q2)
      = σ1 ^ 2 + (σ2 * share S2 K t r b2 Q2) ^ 2 - 2 * ρ * σ1 * σ2 * share S2 K t r b2 Q2 := by
    unfold ratioVar; ring
  rw [e] at hc hp
  refine ⟨a, h, ?_⟩
  cases isCall
  · rw [if_neg (by simp), hp]
    simp only [KirkFl.price, Bool.false_eq_true, if_false, hcnd]
    rfl
  · rw [if_pos rfl, hc]
    simp only [KirkFl.price, if_true, hcnd]
    rfl

/-- Level of the discount factors beyond a rounding: `(|b1| + |b2| + |r|) t` is the size of the exponents. -/
noncomputable def discLevel (e t r b1 b2 : ℝ) : ℝ := (exp (2 * level e) - 1) * ((|b1| + |b2| + |r|) * t)

/-- Level of the variance of the spread: the difference in it has condition number at most `(1 + |ρ|) / (1 - |ρ|)`. -/
noncomputable def varLevel (e η ρ : ℝ) : ℝ := -log (1 - (exp (21 * level e + 4 * η) - 1) * ((1 + |ρ|) / (1 - |ρ|)))

/-- Error of the price relative to the two sides of the spread, where `X` is the condition of `d1` and `d2`. -/
noncomputable def kirkErr (e η ω X : ℝ) : ℝ :=
  exp (15 * level e + 3 * η)
    * (1 + (7.5e-8 + (exp (39 * level e) - 1) * 3.25 + 0.4 * ((exp (15 * level e + 2 * η + 2 * ω) - 1) * X))) - 1

section
variable {e : ℝ} {A : ArithT} (hA : RoundedT e A) (he : 0 ≤ e) (he1 : e < 1)
include hA he he1

omit hA in
theorem kirk_level_nonneg : 0 ≤ level e := by
  unfold level
  have := log_nonpos (by linarith) (by linarith : 1 - e ≤ 1)
  linarith

/-- `exp (w t)` for a rate `w` with one rounding. -/
theorem expo_rel {t c C w : ℝ} (ht : 0 ≤ t) (hc : |c| ≤ C) (hw : Rel (level e) w c) :
    Rel (level e + (exp (2 * level e) - 1) * (C * t)) (A.exp (A.mul w t)) (exp (c * t)) := by
  have hL := kirk_level_nonneg he he1
  have h1 := ((hw.mul (Rel.rfl' (y := t))).round he he1 (hA.mul _ _)).mono (θ' := 2 * level e) (by unfold level; linarith)
  have h2 := h1.err.err
  rw [abs_mul, abs_of_nonneg ht] at h2
  have h3 : Rel ((exp (2 * level e) - 1) * (C * t)) (exp (A.mul w t)) (exp (c * t)) := by
    refine ⟨A.mul w t - c * t, h2.trans ?_, by rw [← exp_add]; congr 1; ring⟩
    have := one_le_exp (by linarith : 0 ≤ 2 * level e)
    gcongr
  exact (h3.round he he1 (z := A.exp (A.mul w t)) (by rw [abs_of_pos (exp_pos _)]; exact hA.exp _)).mono
    (by unfold level; linarith)

/-- The rounded distribution function at a rounded argument, against the exact one at the exact argument. -/
theorem cnd_near {θ x' x X : ℝ} (hθ : 0 ≤ θ) (h : Err θ x' x X) :
    Err (log (1 + (7.5e-8 + (exp (39 * level e) - 1) * 3.25 + 0.4 * ((exp θ - 1) * X)))) (GBSFl.cnd A x') (Φ x) 1 := by
  have hL := kirk_level_nonneg he he1
  have h39 := one_le_exp (by linarith : 0 ≤ 39 * level e)
  have hθ1 := one_le_exp hθ
  have hX := h.nonneg
  have hp : 0 < 1 + (7.5e-8 + (exp (39 * level e) - 1) * 3.25 + 0.4 * ((exp θ - 1) * X)) := by
    have h1 : 0 ≤ (exp (39 * level e) - 1) * 3.25 := mul_nonneg (by linarith) (by norm_num)
    have h2 : 0 ≤ (exp θ - 1) * X := mul_nonneg (by linarith) hX
    linarith
  refine ⟨?_, by rw [abs_of_nonneg (Φ_nonneg x)]; exact (Φ_lt_one x).le⟩
  rw [exp_log hp, mul_one, add_sub_cancel_left]
  have a := cnd_err hA he he1 x'
  rw [show -log (1 - e) = level e from rfl] at a
  have b := CNDError.CND_error x'
  have c := Φ_dist x' x
  have d := h.err
  calc |GBSFl.cnd A x' - Φ x|
      = |(GBSFl.cnd A x' - CND x') + (CND x' - Φ x') + (Φ x' - Φ x)| := by ring_nf
    _ ≤ |GBSFl.cnd A x' - CND x'| + |CND x' - Φ x'| + |Φ x' - Φ x| := abs_add_three _ _ _
    _ ≤ _ := by linarith

omit hA he he1 in
/-- The condition number of the variance. -/
theorem ratio_cond {ρ x y : ℝ} (hρ : |ρ| < 1) :
    x ^ 2 + y ^ 2 + |2 * ρ * x * y| ≤ (1 + |ρ|) / (1 - |ρ|) * ratioVar ρ x y ∧
    (1 - |ρ|) * (x ^ 2 + y ^ 2) ≤ ratioVar ρ x y := by
  have h1 : 0 < 1 - |ρ| := by linarith
  have h2 : |2 * x * y| ≤ x ^ 2 + y ^ 2 := by
    rw [abs_le]; constructor <;> nlinarith [sq_nonneg (x + y), sq_nonneg (x - y)]
  have h3 : |2 * ρ * x * y| = |ρ| * |2 * x * y| := by rw [← abs_mul]; congr 1; ring
  have h4 : |2 * ρ * x * y| ≤ |ρ| * (x ^ 2 + y ^ 2) := by
    rw [h3]; exact mul_le_mul_of_nonneg_left h2 (abs_nonneg _)
  have h5 := le_abs_self (2 * ρ * x * y)
  have h6 : (1 - |ρ|) * (x ^ 2 + y ^ 2) ≤ ratioVar ρ x y := by
    unfold ratioVar
    nlinarith
  refine ⟨?_, h6⟩
  calc x ^ 2 + y ^ 2 + |2 * ρ * x * y| ≤ (1 + |ρ|) * (x ^ 2 + y ^ 2) := by linarith
    _ = (1 + |ρ|) / (1 - |ρ|) * ((1 - |ρ|) * (x ^ 2 + y ^ 2)) := by field_simp
    _ ≤ _ := mul_le_mul_of_nonneg_left h6 (by positivity)

omit hA he he1 in
/-- A relative error bound as a factor. -/
theorem rel_of_abs {δ x y : ℝ} (hy : 0 < y) (hδ : δ < 1) (h : |x - y| ≤ δ * y) : Rel (-log (1 - δ)) x y := by
  have h0 : 0 ≤ δ := by
    by_contra hn
    have := (abs_nonneg _).trans h
    nlinarith
  exact Rel.of_round h0 hδ (by rwa [abs_of_pos hy])

/-- The volatility of the spread. -/
theorem sigma_rel {η ρ σ1 σ2 F F' : ℝ} (hη : 0 ≤ η) (hρ : |ρ| < 1) (hσ1 : 0 < σ1)
    (hF : Rel (8 * level e + 2 * η) F' F)
    (hc : (exp (21 * level e + 4 * η) - 1) * ((1 + |ρ|) / (1 - |ρ|)) < 1) :
    0 < ratioVar ρ σ1 (σ2 * F) ∧
    Rel (varLevel e η ρ / 2 + level e) (KirkFl.sigma A σ1 σ2 ρ F') √(ratioVar ρ σ1 (σ2 * F)) := by
  have hL := kirk_level_nonneg he he1
  obtain ⟨hκ, hpos⟩ := ratio_cond (ρ := ρ) (x := σ1) (y := σ2 * F) hρ
  have hv : 0 < ratioVar ρ σ1 (σ2 * F) := by
    refine lt_of_lt_of_le (mul_pos (by linarith) ?_) hpos
    positivity
  refine ⟨hv, ?_⟩
  have a1 : Rel (level e) (A.pow σ1 2) (σ1 ^ 2) := Rel.of_round he he1 (hA.pow _ _)
  have a2 := ((Rel.rfl' (y := σ2)).mul hF).round he he1 (hA.mul _ _)
  have a3 := (a2.pow 2).round he he1 (hA.pow _ 2)
  have a4 := ((a1.mono (θ' := 19 * level e + 4 * η) (by linarith)).add (a3.mono (by unfold level; push_cast; linarith))
    (by positivity) (by positivity)).round he he1 (hA.add _ _)
  have b1 : Rel (level e) (A.mul 2 ρ) (2 * ρ) := Rel.of_round he he1 (hA.mul _ _)
  have b2 := ((b1.mul (Rel.rfl' (y := σ1))).round he he1 (hA.mul _ _))
  have b3 := ((b2.mul (Rel.rfl' (y := σ2))).round he he1 (hA.mul _ _))
  have b4 := ((b3.mul hF).round he he1 (hA.mul _ _))
  have c1 := ((a4.err.mono (θ' := 20 * level e + 4 * η) (by unfold level; linarith)).sub
    (b4.err.mono (θ' := 20 * level e + 4 * η) (by unfold level at *; linarith))).round' he he1 (hA.sub _ _)
  have c2 := (c1.mono (θ' := 21 * level e + 4 * η) (by unfold level; linarith)).err
  have e1 : σ1 ^ 2 + (σ2 * F) ^ 2 - 2 * ρ * σ1 * σ2 * F = ratioVar ρ σ1 (σ2 * F) := by unfold ratioVar; ring
  have e2 : |σ1 ^ 2 + (σ2 * F) ^ 2| + |2 * ρ * σ1 * σ2 * F| = σ1 ^ 2 + (σ2 * F) ^ 2 + |2 * ρ * σ1 * (σ2 * F)| := by
    rw [abs_of_nonneg (by positivity)]; congr 2; ring
  rw [e1, e2] at c2
  have h1 := one_le_exp (by positivity : 0 ≤ 21 * level e + 4 * η)
  have c3 := c2.trans (mul_le_mul_of_nonneg_left hκ (by linarith))
  rw [← mul_assoc] at c3
  have c4 := (rel_of_abs hv hc c3).sqrt
  exact (c4.round he he1 (z := KirkFl.sigma A σ1 σ2 ρ F') (by
    rw [abs_of_nonneg (sqrt_nonneg _)]; exact hA.sqrt _)).mono (by unfold varLevel level; linarith)

/-- `d1` and `d2`. -/
theorem kirk_d_err {η ω S S' t s s' : ℝ} (hη : 0 ≤ η) (hω : 0 ≤ ω) (hS : 0 < S) (ht : 0 < t) (hs : 0 < s)
    (hS' : Rel (8 * level e + 2 * η) S' S) (hs' : Rel (ω / 2 + level e) s' s) :
    Err (15 * level e + 2 * η + 2 * ω) (KirkFl.d1 A S' t s') ((log S + s * s / 2 * t) / (s * √t))
      ((|log S| + 1 + s ^ 2 / 2 * t) / (s * √t) + s * √t) ∧
    Err (15 * level e + 2 * η + 2 * ω) (KirkFl.d2 A (KirkFl.d1 A S' t s') s' t) ((log S + s * s / 2 * t) / (s * √t) - s * √t)
      ((|log S| + 1 + s ^ 2 / 2 * t) / (s * √t) + s * √t) := by
  have hL := kirk_level_nonneg he he1
  have hst : 0 < √t := sqrt_pos.2 ht
  have hl : Err (9 * level e + 2 * η) (A.log S') (log S) (|log S| + 1) := by
    obtain ⟨δ, hδ, hx⟩ := hS'
    have h1 : Err (8 * level e + 2 * η) (log S') (log S) (|log S| + 1) := by
      refine ⟨?_, by linarith⟩
      rw [hx, log_mul hS.ne' (exp_pos _).ne', log_exp, add_sub_cancel_left]
      have := add_one_le_exp (8 * level e + 2 * η)
      nlinarith [abs_nonneg (log S)]
    exact (h1.round' he he1 (hA.log _)).mono (by unfold level; linarith)
  have v1 := (hs'.pow 2).round he he1 (hA.pow s' 2)
  have v2 := ((Rel.rfl' (y := (0.5 : ℝ))).mul v1).round he he1 (hA.mul _ _)
  have v3 := (v2.mul (Rel.rfl' (y := t))).round he he1 (hA.mul _ _)
  have v4 := v3.mono (θ' := 9 * level e + 2 * η + ω) (by unfold level at *; push_cast; linarith)
  have n1 := ((hl.mono (θ' := 9 * level e + 2 * η + ω) (by linarith)).add v4.err).round' he he1 (hA.add _ _)
  have w1 : Rel (level e) (A.sqrt t) √t := Rel.of_round he he1 (by rw [abs_of_nonneg (sqrt_nonneg _)]; exact hA.sqrt _)
  have w2 := ((hs'.mul w1).round he he1 (hA.mul _ _)).mono (θ' := ω / 2 + 3 * level e) (by unfold level; linarith)
  have n2 := n1.mul w2.inv.err
  rw [← div_eq_mul_inv, ← div_eq_mul_inv] at n2
  have n3 := (n2.round' he he1 (hA.div _ _)).mono (θ' := 14 * level e + 2 * η + 2 * ω) (by unfold level at *; linarith)
  rw [abs_of_pos (by positivity : 0 < (s * √t)⁻¹), abs_of_nonneg (by positivity : 0 ≤ 0.5 * s ^ 2 * t), ← div_eq_mul_inv,
    show 0.5 * s ^ 2 * t = s ^ 2 / 2 * t by ring] at n3
  have n4 : Err (14 * level e + 2 * η + 2 * ω) (KirkFl.d1 A S' t s') ((log S + s * s / 2 * t) / (s * √t))
      ((|log S| + 1 + s ^ 2 / 2 * t) / (s * √t)) := by
    rw [← sq]; exact n3
  have hst' : 0 < s * √t := by positivity
  refine ⟨(n4.mono (by linarith)).weaken (by positivity) (by linarith), ?_⟩
  have p := (n4.sub (w2.err.mono (θ' := 14 * level e + 2 * η + 2 * ω) (by linarith))).round' he he1 (hA.sub _ _)
  rw [abs_of_pos hst'] at p
  exact p.mono (by unfold level; linarith)

end

variable {e : ℝ} {A : ArithT} {S1 S2 K t r b1 b2 σ1 σ2 ρ Q1 Q2 : ℝ}

/-- **C139.** Both prices computed in rounded arithmetic differ from the exact value of the option to exchange the short side
`D` of the spread for the long side `N`, with Kirk's volatility `s`, by at most `kirkErr` relative to `N + D`. -/
theorem C139_price (hA : RoundedT e A) (he : 0 ≤ e) (he1 : e < 1) (h1 : 0 < Q1 * S1) (h2 : 0 ≤ Q2 * S2) (hK : 0 ≤ K)
    (hD0 : 0 < Q2 * S2 + K) (ht : 0 < t) (hσ1 : 0 < σ1) (hρ : |ρ| < 1) {N D F s η : ℝ}
    (hN : N = Q1 * S1 * exp ((b1 - r) * t)) (hD : D = Q2 * S2 * exp ((b2 - r) * t) + K * exp (-r * t))
    (hF : F = Q2 * S2 * exp ((b2 - r) * t) / D) (hs : s = √(σ1 ^ 2 + (σ2 * F) ^ 2 - 2 * ρ * σ1 * (σ2 * F)))
    (hη : η = discLevel e t r b1 b2) (hc : (exp (21 * level e + 4 * η) - 1) * ((1 + |ρ|) / (1 - |ρ|)) < 1) (isCall : Bool) :
    |KirkFl.price A isCall S1 S2 K t r b1 b2 σ1 σ2 ρ Q1 Q2 - bsPrice isCall N D t 0 0 s|
      ≤ kirkErr e η (varLevel e η ρ) (dCond N D t 0 s) * (N + D) := by
  have hL := kirk_level_nonneg he he1
  have hη0 : 0 ≤ η := by
    rw [hη]; unfold discLevel
    have := one_le_exp (by linarith : 0 ≤ 2 * level e)
    have : 0 ≤ exp (2 * level e) - 1 := by linarith
    positivity
  have hNp : 0 < N := by rw [hN]; positivity
  have hDp : 0 < D := by
    rw [hD]
    rcases h2.eq_or_lt with h | h
    · have : 0 < K := by linarith
      positivity
    · have := mul_nonneg hK (exp_pos (-r * t)).le
      positivity
  -- the sides of the spread
  have disc : ∀ {c w : ℝ}, |c| ≤ |b1| + |b2| + |r| → Rel (level e) w c →
      Rel (level e + η) (A.exp (A.mul w t)) (exp (c * t)) := fun hc hw => by
    rw [hη]; exact expo_rel hA he he1 ht.le hc hw
  have leg : ∀ {Q S b : ℝ}, |b| ≤ |b1| + |b2| →
      Rel (3 * level e + η) (KirkFl.leg A Q S b r t) (Q * S * exp ((b - r) * t)) := fun {Q S b} hb => by
    have a : Rel (level e) (A.mul Q S) (Q * S) := Rel.of_round he he1 (hA.mul _ _)
    have c := disc ((abs_sub b r).trans (by linarith)) (Rel.of_round he he1 (hA.sub b r))
    exact ((a.mul c).round he he1 (hA.mul _ _)).mono (by unfold level; linarith)
  have long := leg (Q := Q1) (S := S1) (b := b1) (by linarith [abs_nonneg b2])
  have l2 := leg (Q := Q2) (S := S2) (b := b2) (by linarith [abs_nonneg b1])
  have kk : Rel (3 * level e + η) (A.mul K (A.exp (A.mul (-r) t))) (K * exp (-r * t)) := by
    have c := disc (c := -r) (by rw [abs_neg]; linarith [abs_nonneg b1, abs_nonneg b2]) ((Rel.rfl' (y := -r)).mono hL)
    exact (((Rel.rfl' (y := K)).mul c).round he he1 (hA.mul _ _)).mono (by unfold level at *; linarith)
  have short : Rel (4 * level e + η) (KirkFl.short A S2 K t r b2 Q2) D := by
    rw [hD]
    exact ((l2.add kk (by positivity) (by positivity)).round he he1 (hA.add _ _)).mono (by unfold level; linarith)
  have ratio : Rel (8 * level e + 2 * η) (KirkFl.ratio A S1 S2 K t r b1 b2 Q1 Q2) (N / D) := by
    rw [← hN] at long
    exact ((long.div short).round he he1 (hA.div _ _)).mono (by unfold level; linarith)
  have share : Rel (8 * level e + 2 * η) (KirkFl.share A S2 K t r b2 Q2) F := by
    rw [hF]
    exact ((l2.div short).round he he1 (hA.div _ _)).mono (by unfold level; linarith)
  -- the volatility
  obtain ⟨hv, hsig⟩ := sigma_rel hA he he1 (σ2 := σ2) hη0 hρ hσ1 share hc
  have hsv : s = √(ratioVar ρ σ1 (σ2 * F)) := by rw [hs]; rfl
  rw [← hsv] at hsig
  have hsp : 0 < s := by rw [hsv]; exact sqrt_pos.2 hv
  have hω : 0 ≤ varLevel e η ρ := by
    have h3 := one_le_exp (by positivity : 0 ≤ 21 * level e + 4 * η)
    have h4 : 0 ≤ (1 + |ρ|) / (1 - |ρ|) := div_nonneg (by positivity) (by linarith)
    have h5 : 0 ≤ (exp (21 * level e + 4 * η) - 1) * ((1 + |ρ|) / (1 - |ρ|)) := mul_nonneg (by linarith) h4
    unfold varLevel
    have := log_nonpos (by linarith) (by linarith : 1 - (exp (21 * level e + 4 * η) - 1) * ((1 + |ρ|) / (1 - |ρ|)) ≤ 1)
    linarith
  generalize varLevel e η ρ = ω at *
  obtain ⟨e1, e2⟩ := kirk_d_err hA he he1 hη0 hω (div_pos hNp hDp) ht hsp ratio hsig
  have hX : (|log (N / D)| + 1 + s ^ 2 / 2 * t) / (s * √t) + s * √t = dCond N D t 0 s := by
    unfold dCond; rw [abs_zero, zero_add]
  rw [hX] at e1 e2
  generalize dCond N D t 0 s = X at *
  set S' := KirkFl.ratio A S1 S2 K t r b1 b2 Q1 Q2
  set D' := KirkFl.short A S2 K t r b2 Q2
  set s' := KirkFl.sigma A σ1 σ2 ρ (KirkFl.share A S2 K t r b2 Q2)
  set d1' := KirkFl.d1 A S' t s'
  set d2' := KirkFl.d2 A d1' s' t
  set d1 := (log (N / D) + s * s / 2 * t) / (s * √t) with hd1
  set ϑ := 15 * level e + 2 * η + 2 * ω with hϑ
  have hϑ0 : 0 ≤ ϑ := by positivity
  have hp : 0 < 1 + (7.5e-8 + (exp (39 * level e) - 1) * 3.25 + 0.4 * ((exp ϑ - 1) * X)) := by
    have h39 := one_le_exp (by linarith : 0 ≤ 39 * level e)
    have h3 := one_le_exp hϑ0
    have h4 : 0 ≤ (exp (39 * level e) - 1) * 3.25 := mul_nonneg (by linarith) (by norm_num)
    have h5 : 0 ≤ (exp ϑ - 1) * X := mul_nonneg (by linarith) e1.nonneg
    linarith
  have hE0 : 0 ≤ log (1 + (7.5e-8 + (exp (39 * level e) - 1) * 3.25 + 0.4 * ((exp ϑ - 1) * X))) := by
    refine log_nonneg ?_
    have h39 := one_le_exp (by linarith : 0 ≤ 39 * level e)
    have h3 := one_le_exp hϑ0
    have h4 : 0 ≤ (exp (39 * level e) - 1) * 3.25 := mul_nonneg (by linarith) (by norm_num)
    have h5 : 0 ≤ (exp ϑ - 1) * X := mul_nonneg (by linarith) e1.nonneg
    linarith
  have fin : ∀ {x y B : ℝ}, Err (15 * level e + 3 * η
      + log (1 + (7.5e-8 + (exp (39 * level e) - 1) * 3.25 + 0.4 * ((exp ϑ - 1) * X)))) x y B →
      |x - y| ≤ kirkErr e η ω X * B := by
    intro x y B h
    refine h.err.trans (le_of_eq ?_)
    congr 1
    unfold kirkErr
    rw [exp_add, exp_log hp]
  have hd1' : D1 N D t 0 s = d1 := by unfold D1 GBS.d1Expr; rw [hd1, zero_add]
  have hcall : bsPrice true N D t 0 0 s = D * (N / D * Φ d1 - Φ (d1 - s * √t)) := by
    have h3 : bsPrice true N D t 0 0 s = bsCall N D t 0 0 s := rfl
    rw [h3, bsCall_eq hNp hDp ht hsp, hd1']
    simp only [sub_self, zero_mul, neg_zero, exp_zero, mul_one]
    field_simp
  have hput : bsPrice false N D t 0 0 s = D * (-(N / D) * Φ (-d1) + Φ (-(d1 - s * √t))) := by
    have h3 : bsPrice false N D t 0 0 s = bsPut N D t 0 0 s := rfl
    have f1 := Φ_add_Φ_neg d1
    have f2 := Φ_add_Φ_neg (d1 - s * √t)
    rw [h3, bsPut_eq_call ht.le, bsCall_eq hNp hDp ht hsp, hd1']
    simp only [sub_self, zero_mul, neg_zero, exp_zero, mul_one]
    have f3 : N / D * D = N := by field_simp
    linear_combination -D * f2 + N * f1 + Φ (-d1) * f3
  have hB : D * (N / D * 1 + 1) = N + D := by field_simp
  have hSp : 0 ≤ N / D := by positivity
  cases isCall
  · rw [hput]
    have u := (ratio.neg.err.mul (cnd_near hA he he1 hϑ0 e1.neg)).round' he he1 (hA.mul _ _)
    have v := ((u.add ((cnd_near hA he he1 hϑ0 e2.neg).mono (by unfold level at *; linarith)))).round' he he1 (hA.add _ _)
    have w := (short.err.mul v).round' he he1 (hA.mul _ _)
    rw [abs_neg, abs_of_nonneg hSp, abs_of_pos hDp, hB] at w
    exact fin (w.mono (by unfold level; linarith))
  · rw [hcall]
    have u := (ratio.err.mul (cnd_near hA he he1 hϑ0 e1)).round' he he1 (hA.mul _ _)
    have v := ((u.sub ((cnd_near hA he he1 hϑ0 e2).mono (by unfold level at *; linarith)))).round' he he1 (hA.sub _ _)
    have w := (short.err.mul v).round' he he1 (hA.mul _ _)
    rw [abs_of_nonneg hSp, abs_of_pos hDp, hB] at w
    exact fin (w.mono (by unfold level; linarith))

theorem kirk_level_le (he : 0 ≤ e) (he2 : e ≤ 1 / 2) : level e ≤ 2 * e := by
  unfold level
  have h1 : (0 : ℝ) < 1 - e := by linarith
  have := one_sub_inv_le_log_of_pos h1
  have h2 : (1 - e)⁻¹ ≤ 1 + 2 * e := by
    rw [inv_le_iff_one_le_mul₀ h1]; nlinarith
  linarith

theorem kirk_exp_sub_one_le {x : ℝ} (h0 : 0 ≤ x) (h1 : x ≤ 1 / 2) : exp x - 1 ≤ 2 * x := by
  have := add_one_le_exp (-x)
  have h2 : exp x * exp (-x) = 1 := by rw [← exp_add]; simp
  have h3 : exp x * (1 - x) ≤ 1 := by rw [← h2]; exact mul_le_mul_of_nonneg_left (by linarith) (exp_pos x).le
  nlinarith [exp_pos x]

/-- **C139.** In double precision the rounding error is far below the error of the polynomial approximation of the normal
distribution, for correlations up to `0.98`, `(|b1| + |b2| + |r|) t` up to `10` and a condition of `d1`, `d2` up to `100`. -/
theorem C139_double (hA : RoundedT e A) (he : 0 ≤ e) (he1 : e ≤ 2⁻¹ ^ 53) (h1 : 0 < Q1 * S1) (h2 : 0 ≤ Q2 * S2) (hK : 0 ≤ K)
    (hD0 : 0 < Q2 * S2 + K) (ht : 0 < t) (hσ1 : 0 < σ1) (hρ : |ρ| ≤ 0.98) {N D F s : ℝ}
    (hN : N = Q1 * S1 * exp ((b1 - r) * t)) (hD : D = Q2 * S2 * exp ((b2 - r) * t) + K * exp (-r * t))
    (hF : F = Q2 * S2 * exp ((b2 - r) * t) / D) (hs : s = √(σ1 ^ 2 + (σ2 * F) ^ 2 - 2 * ρ * σ1 * (σ2 * F)))
    (hr : (|b1| + |b2| + |r|) * t ≤ 10) (hd : dCond N D t 0 s ≤ 100) (isCall : Bool) :
    |KirkFl.price A isCall S1 S2 K t r b1 b2 σ1 σ2 ρ Q1 Q2 - bsPrice isCall N D t 0 0 s| ≤ 8e-8 * (N + D) := by
  have he53 : e ≤ 1.2e-16 := he1.trans (by norm_num)
  have hl := kirk_level_le he (by linarith)
  have hl0 := kirk_level_nonneg he (by linarith : e < 1)
  have hL : level e ≤ 2.4e-16 := by linarith
  have h2e := kirk_exp_sub_one_le (x := 2 * level e) (by linarith) (by linarith)
  have h2n : 0 ≤ exp (2 * level e) - 1 := by linarith [one_le_exp (by linarith : 0 ≤ 2 * level e)]
  have hr0 : 0 ≤ (|b1| + |b2| + |r|) * t := by positivity
  obtain ⟨η, hη⟩ : ∃ η, η = discLevel e t r b1 b2 := ⟨_, rfl⟩
  have hη0 : 0 ≤ η := by rw [hη]; exact mul_nonneg h2n hr0
  have hη1 : η ≤ 1e-14 := by
    rw [hη]; unfold discLevel
    calc _ ≤ (9.6e-16 : ℝ) * 10 := mul_le_mul (by linarith) hr hr0 (by norm_num)
      _ ≤ _ := by norm_num
  have hκ : (1 + |ρ|) / (1 - |ρ|) ≤ 100 := by rw [div_le_iff₀ (by linarith)]; linarith
  have hκ0 : 0 ≤ (1 + |ρ|) / (1 - |ρ|) := div_nonneg (by positivity) (by linarith)
  have h21 := kirk_exp_sub_one_le (x := 21 * level e + 4 * η) (by linarith) (by linarith)
  have h21n : 0 ≤ exp (21 * level e + 4 * η) - 1 := by
    linarith [one_le_exp (by linarith : 0 ≤ 21 * level e + 4 * η)]
  have hδ : (exp (21 * level e + 4 * η) - 1) * ((1 + |ρ|) / (1 - |ρ|)) ≤ 1e-11 := by
    calc _ ≤ (1e-13 : ℝ) * 100 := mul_le_mul (by linarith) hκ hκ0 (by norm_num)
      _ ≤ _ := by norm_num
  have hδ0 := mul_nonneg h21n hκ0
  have hω : varLevel e η ρ ≤ 2e-11 := (kirk_level_le hδ0 (by linarith)).trans (by linarith)
  have hω0 : 0 ≤ varLevel e η ρ := kirk_level_nonneg hδ0 (by linarith)
  have hdp : 0 ≤ dCond N D t 0 s := by
    have : 0 ≤ s := by rw [hs]; exact sqrt_nonneg _
    unfold dCond; positivity
  have hND : 0 ≤ N + D := by
    rw [hN, hD]; positivity
  refine (C139_price hA he (by linarith) h1 h2 hK hD0 ht hσ1 (by linarith) hN hD hF hs hη (by linarith) isCall).trans ?_
  refine mul_le_mul_of_nonneg_right ?_ hND
  generalize varLevel e η ρ = ω at *
  generalize dCond N D t 0 s = X at *
  have h15 := kirk_exp_sub_one_le (x := 15 * level e + 2 * η + 2 * ω) (by linarith) (by linarith)
  have h15n : 0 ≤ exp (15 * level e + 2 * η + 2 * ω) - 1 := by
    linarith [one_le_exp (by linarith : 0 ≤ 15 * level e + 2 * η + 2 * ω)]
  have h39 := kirk_exp_sub_one_le (x := 39 * level e) (by linarith) (by linarith)
  have hp := kirk_exp_sub_one_le (x := 15 * level e + 3 * η) (by linarith) (by linarith)
  unfold kirkErr
  have k1 : (exp (15 * level e + 2 * η + 2 * ω) - 1) * X ≤ 9e-11 * 100 := mul_le_mul (by linarith) hd hdp (by norm_num)
  have k2 : exp (15 * level e + 3 * η) ≤ 1 + 1e-13 := by linarith
  set W := 7.5e-8 + (exp (39 * level e) - 1) * 3.25 + 0.4 * ((exp (15 * level e + 2 * η + 2 * ω) - 1) * X) with hW
  have k3 : W ≤ 7.9e-8 := by rw [hW]; linarith
  have k4 : exp (15 * level e + 3 * η) * (1 + W) ≤ (1 + 1e-13) * (1 + 7.9e-8) :=
    mul_le_mul k2 (by linarith) (by
      have : 0 ≤ exp (39 * level e) - 1 := by linarith [one_le_exp (by linarith : 0 ≤ 39 * level e)]
      have := mul_nonneg h15n hdp
      rw [hW]; linarith) (by norm_num)
  norm_num at k4 ⊢
  linarith

/-- C139, a case: the documented example, with `t = 1`, in a biased arithmetic that is not exact. -/
theorem C139_example :
    RoundedT (2⁻¹ ^ 53) (biased (2⁻¹ ^ 53)) ∧ (biased (2⁻¹ ^ 53)).add 1 1 ≠ 2 ∧
    ∀ isCall, |KirkFl.price (biased (2⁻¹ ^ 53)) isCall 122 120 3 1 0.1 0 0 0.2 0.25 0.5 1 1
        - bsPrice isCall (122 * exp (-0.1)) (123 * exp (-0.1)) 1 0 0
            √(0.2 ^ 2 + (0.25 * (120 / 123)) ^ 2 - 2 * 0.5 * 0.2 * (0.25 * (120 / 123)))|
      ≤ 8e-8 * (122 * exp (-0.1) + 123 * exp (-0.1)) := by
  obtain ⟨hA, hb, -⟩ := C100_example
  refine ⟨hA, hb, fun isCall => ?_⟩
  have hp := exp_pos (-0.1 : ℝ)
  have e1 : ((0 : ℝ) - 0.1) * 1 = -0.1 := by norm_num
  have e2 : (-0.1 : ℝ) * 1 = -0.1 := by norm_num
  refine C139_double hA (by positivity) le_rfl (by norm_num) (by norm_num) (by norm_num) (by norm_num) (by norm_num)
    (by norm_num) (by rw [abs_of_pos] <;> norm_num) (F := 120 / 123) ?_ ?_ ?_ rfl ?_ ?_ isCall
  · rw [e1]; ring
  · rw [e1, e2]; ring
  · rw [e1]; field_simp
  · rw [abs_zero, abs_of_pos (by norm_num)]; norm_num
  · set s := √((0.2 : ℝ) ^ 2 + (0.25 * (120 / 123)) ^ 2 - 2 * 0.5 * 0.2 * (0.25 * (120 / 123))) with hs
    have s1 : 0.2 ≤ s := by rw [hs]; exact le_sqrt_of_sq_le (by norm_num)
    have s2 : s ≤ 1 := by rw [hs]; exact sqrt_le_one.2 (by norm_num)
    have hr : (122 * exp (-0.1) / (123 * exp (-0.1)) : ℝ) = 122 / 123 := by field_simp
    have hl : |log (122 / 123 : ℝ)| ≤ 1 := by
      have h1 := log_nonpos (by norm_num) (by norm_num : (122 / 123 : ℝ) ≤ 1)
      have h2 := one_sub_inv_le_log_of_pos (by norm_num : (0 : ℝ) < 122 / 123)
      rw [abs_of_nonpos h1]; norm_num at h2 ⊢; linarith
    unfold dCond
    rw [hr, abs_zero, sqrt_one, mul_one, mul_one, zero_add]
    have h3 : (|log (122 / 123 : ℝ)| + 1 + s ^ 2 / 2) / s ≤ 13 := by
      rw [div_le_iff₀ (by linarith)]; nlinarith
    linarith

end Verif.Props
