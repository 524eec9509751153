import Verif.Lemmas.GBSObj
import Verif.Props.GBSAlgebra
import Verif.Props.GBSAccuracy

/-!
# Kirk's spread option approximation (C42)
-/
set_option linter.unusedSimpArgs false
namespace Verif.Props
open Verif Verif.Spec Real

/-- Keyword arguments of a `SpreadApproxOption`. -/
def kirkKw (S1 S2 K t r b1 b2 σ1 σ2 ρ Q1 Q2 : ℝ) : Dict :=
  [("S1", .num S1), ("S2", .num S2), ("K", .num K), ("t", .num t), ("r", .num r), ("b1", .num b1),
   ("b2", .num b2), ("sigma1", .num σ1), ("sigma2", .num σ2), ("rho", .num ρ), ("Q1", .num Q1),
   ("Q2", .num Q2)]

section
variable (S1 S2 K t r b1 b2 σ1 σ2 ρ Q1 Q2 : ℝ)

/-- Present value of the short side: the second asset plus the strike. -/
noncomputable def shortLeg : ℝ := Q2 * S2 * exp ((b2 - r) * t) + K * exp (-r * t)

/-- Share of the second asset in the short side. -/
noncomputable def share : ℝ := Q2 * S2 * exp ((b2 - r) * t) / shortLeg S2 K t r b2 Q2

/-- Variance rate of the ratio of two assets with volatilities `x`, `y` and correlation `ρ`. -/
def ratioVar (ρ x y : ℝ) : ℝ := x ^ 2 + y ^ 2 - 2 * ρ * x * y

theorem kirk_attrs :
    ∃ a, kirkCls.construct (kirkKw S1 S2 K t r b1 b2 σ1 σ2 ρ Q1 Q2) = (a, none) ∧
      a "_S2" = some (.num S2) ∧ a "_Q2" = some (.num Q2) ∧ a "_K" = some (.num K) ∧
      a "_t" = some (.num t) ∧ a "_r" = some (.num r) ∧ a "_e2" = some (.num (exp ((b2 - r) * t))) ∧
      a "_S" = some (.num (Q1 * S1 * exp ((b1 - r) * t) / shortLeg S2 K t r b2 Q2)) ∧
      a "_sigma" = some (.num √(ratioVar ρ σ1 (σ2 * share S2 K t r b2 Q2))) ∧
      a "_d1" = some (.num ((log (Q1 * S1 * exp ((b1 - r) * t) / shortLeg S2 K t r b2 Q2)
        + 0.5 * √(ratioVar ρ σ1 (σ2 * share S2 K t r b2 Q2)) ^ 2 * t)
          / (√(ratioVar ρ σ1 (σ2 * share S2 K t r b2 Q2)) * √t))) ∧
      a "_d2" = some (.num ((log (Q1 * S1 * exp ((b1 - r) * t) / shortLeg S2 K t r b2 Q2)
        + 0.5 * √(ratioVar ρ σ1 (σ2 * share S2 K t r b2 Q2)) ^ 2 * t)
          / (√(ratioVar ρ σ1 (σ2 * share S2 K t r b2 Q2)) * √t)
          - √(ratioVar ρ σ1 (σ2 * share S2 K t r b2 Q2)) * √t)) := by
  have e : ratioVar ρ σ1 (σ2 * share S2 K t r b2 Q2)
      = σ1 ^ 2 + (σ2 * share S2 K t r b2 Q2) ^ 2 - 2 * ρ * σ1 * σ2 * share S2 K t r b2 Q2 := by
    unfold ratioVar; ring
  rw [e]
  simp only [share, shortLeg]
  simp [Cls.construct, Cls.init, kirkCls, kirkKw, bindArgs, req, dflt, assignParams, KirkClass.initD,
      KirkClass.F, exec, Expr.eval, isNoneArg, Attrs.set, Expr.log, Expr.sqrt, Expr.sq, Expr.exp, Val.map,
      Val.map₂, Val.pdiv, ok_bind, List.lookup, eval_add, eval_sub, eval_mul, eval_div, eval_ofNat,
      eval_one, eval_neg]

theorem kirk_prices :
    ∃ a, kirkCls.construct (kirkKw S1 S2 K t r b1 b2 σ1 σ2 ρ Q1 Q2) = (a, none) ∧
      a "_sigma" = some (.num √(ratioVar ρ σ1 (σ2 * share S2 K t r b2 Q2))) ∧
      ∀ N D s d1 d2, N = Q1 * S1 * exp ((b1 - r) * t) → D = shortLeg S2 K t r b2 Q2 →
        s = √(ratioVar ρ σ1 (σ2 * share S2 K t r b2 Q2)) →
        d1 = (log (N / D) + 0.5 * s ^ 2 * t) / (s * √t) → d2 = d1 - s * √t →
        KirkClass.call.run a = .ok (.num (D * (N / D * CND d1 - CND d2))) ∧
        KirkClass.put.run a = .ok (.num (D * (-(N / D) * CND (-d1) + CND (-d2)))) := by
  obtain ⟨a, h, h1, h2, h3, h4, h5, h6, h7, h8, h9, h10⟩ :=
    kirk_attrs S1 S2 K t r b1 b2 σ1 σ2 ρ Q1 Q2
  refine ⟨a, h, h8, ?_⟩
  rintro N D s d1 d2 rfl rfl rfl rfl rfl
  constructor
  · simp [Meth.run, KirkClass.call, eval_add, eval_sub, eval_mul, eval_div, eval_neg, Expr.exp, Expr.cnd,
      Expr.eval, h1, h2, h3, h4, h5, h6, h7, h8, h9, h10, ok_bind, Val.map, Val.map₂]
    left; rw [shortLeg]; simp
  · simp [Meth.run, KirkClass.put, eval_add, eval_sub, eval_mul, eval_div, eval_neg, Expr.exp, Expr.cnd,
      Expr.eval, h1, h2, h3, h4, h5, h6, h7, h8, h9, h10, ok_bind, Val.map, Val.map₂]
    left; rw [shortLeg]; simp

/-- **C42 (parity).** For all numeric parameters for which the short side has nonzero value (else the
code divides by zero): `call - put` is the present value of the spread minus the strike. -/
theorem C42_parity (hD : Q2 * S2 * exp ((b2 - r) * t) + K * exp (-r * t) ≠ 0) :
    ∃ a c p, kirkCls.construct (kirkKw S1 S2 K t r b1 b2 σ1 σ2 ρ Q1 Q2) = (a, none) ∧
      KirkClass.call.run a = .ok (.num c) ∧ KirkClass.put.run a = .ok (.num p) ∧
      c - p = Q1 * S1 * exp ((b1 - r) * t) - Q2 * S2 * exp ((b2 - r) * t) - K * exp (-r * t) := by
  obtain ⟨a, h, -, h1⟩ := kirk_prices S1 S2 K t r b1 b2 σ1 σ2 ρ Q1 Q2
  obtain ⟨hc, hp⟩ := h1 _ _ _ _ _ rfl rfl rfl rfl rfl
  refine ⟨a, _, _, h, hc, hp, ?_⟩
  have hD' : shortLeg S2 K t r b2 Q2 ≠ 0 := hD
  rw [CND_neg, CND_neg]
  field_simp
  rw [shortLeg]
  ring_nf

/-- The effective variance is nonnegative for a correlation. -/
theorem ratioVar_nonneg {ρ : ℝ} (hρ : |ρ| ≤ 1) (x y : ℝ) : 0 ≤ ratioVar ρ x y := by
  have h := abs_le.1 hρ
  unfold ratioVar
  nlinarith [sq_nonneg (x - ρ * y), mul_nonneg (sq_nonneg y) (by nlinarith : 0 ≤ 1 - ρ ^ 2)]

/-- **C42 (variance).** For `|rho| ≤ 1` the stored volatility squared is the variance rate of the ratio
of the first asset to the short side; in particular no square root of a negative number is taken. -/
theorem C42_variance (hρ : |ρ| ≤ 1) :
    ∃ a s, kirkCls.construct (kirkKw S1 S2 K t r b1 b2 σ1 σ2 ρ Q1 Q2) = (a, none) ∧
      a "_sigma" = some (.num s) ∧ 0 ≤ s ∧
      s ^ 2 = ratioVar ρ σ1 (σ2 * (Q2 * S2 * exp ((b2 - r) * t)
        / (Q2 * S2 * exp ((b2 - r) * t) + K * exp (-r * t)))) := by
  obtain ⟨a, h, h1, -⟩ := kirk_prices S1 S2 K t r b1 b2 σ1 σ2 ρ Q1 Q2
  exact ⟨a, _, h, h1, sqrt_nonneg _, sq_sqrt (ratioVar_nonneg hρ _ _)⟩

/-- **C42 (price).** With a positive short side the price is exactly a `GBSOption` price:
the option to exchange the short side for the first leg, with the stored volatility. -/
theorem C42_is_gbs (hD : 0 < Q2 * S2 * exp ((b2 - r) * t) + K * exp (-r * t)) :
    ∃ a s c p, kirkCls.construct (kirkKw S1 S2 K t r b1 b2 σ1 σ2 ρ Q1 Q2) = (a, none) ∧
      a "_sigma" = some (.num s) ∧
      KirkClass.call.run a = .ok (.num c) ∧ KirkClass.put.run a = .ok (.num p) ∧
      (GBS.new (Q1 * S1 * exp ((b1 - r) * t)) (Q2 * S2 * exp ((b2 - r) * t) + K * exp (-r * t)) t 0 0
        (some s)).call = .ok c ∧
      (GBS.new (Q1 * S1 * exp ((b1 - r) * t)) (Q2 * S2 * exp ((b2 - r) * t) + K * exp (-r * t)) t 0 0
        (some s)).put = .ok p := by
  obtain ⟨a, h, hs, h1⟩ := kirk_prices S1 S2 K t r b1 b2 σ1 σ2 ρ Q1 Q2
  set s := √(ratioVar ρ σ1 (σ2 * share S2 K t r b2 Q2))
  have e1 : GBS.d1Expr (Q1 * S1 * exp ((b1 - r) * t)) (shortLeg S2 K t r b2 Q2) t 0 s
      = (log (Q1 * S1 * exp ((b1 - r) * t) / shortLeg S2 K t r b2 Q2) + 0.5 * s ^ 2 * t) / (s * √t) := by
    unfold GBS.d1Expr; congr 1; ring
  obtain ⟨hc, hp⟩ := h1 _ _ s _ (GBS.d2Expr (GBS.d1Expr (Q1 * S1 * exp ((b1 - r) * t))
    (shortLeg S2 K t r b2 Q2) t 0 s) s t) rfl rfl rfl e1 rfl
  have hD' : shortLeg S2 K t r b2 Q2 ≠ 0 := hD.ne'
  refine ⟨a, s, _, _, h, hs, hc, hp, ?_, ?_⟩
  · rw [show Q2 * S2 * exp ((b2 - r) * t) + K * exp (-r * t) = shortLeg S2 K t r b2 Q2 from rfl]
    simp [GBS.call, GBS.new, GBS.checkSigma, GBS.attr, pure, Except.pure, bind, Except.bind]
    field_simp
  · rw [show Q2 * S2 * exp ((b2 - r) * t) + K * exp (-r * t) = shortLeg S2 K t r b2 Q2 from rfl]
    simp [GBS.put, GBS.new, GBS.checkSigma, GBS.attr, pure, Except.pure, bind, Except.bind]
    field_simp
    ring

/-- **C42 (one asset).** With `Q2 * S2 = 0` the prices are exactly the `GBSOption` prices on the first
asset, for positive `Q1 * S1` and `K`. -/
theorem C42_one_asset (hN : 0 < Q1 * S1) (hK : 0 < K) (h2 : Q2 * S2 = 0) (hσ : 0 < σ1) :
    ∃ a c p, kirkCls.construct (kirkKw S1 S2 K t r b1 b2 σ1 σ2 ρ Q1 Q2) = (a, none) ∧
      KirkClass.call.run a = .ok (.num c) ∧ KirkClass.put.run a = .ok (.num p) ∧
      (GBS.new (Q1 * S1) K t r b1 (some σ1)).call = .ok c ∧
      (GBS.new (Q1 * S1) K t r b1 (some σ1)).put = .ok p := by
  obtain ⟨a, h, -, h1⟩ := kirk_prices S1 S2 K t r b1 b2 σ1 σ2 ρ Q1 Q2
  have hD : shortLeg S2 K t r b2 Q2 = K * exp (-r * t) := by simp [shortLeg, h2]
  have hs : √(ratioVar ρ σ1 (σ2 * share S2 K t r b2 Q2)) = σ1 := by
    simp [share, h2, ratioVar, sqrt_sq hσ.le]
  have e1 : GBS.d1Expr (Q1 * S1) K t b1 σ1
      = (log (Q1 * S1 * exp ((b1 - r) * t) / (K * exp (-r * t))) + 0.5 * σ1 ^ 2 * t) / (σ1 * √t) := by
    have : Q1 * S1 * exp ((b1 - r) * t) / (K * exp (-r * t)) = Q1 * S1 / K * exp (b1 * t) := by
      rw [show (b1 - r) * t = b1 * t + -r * t by ring, exp_add]; field_simp
    rw [this, log_mul (by positivity) (exp_pos _).ne', log_exp]
    unfold GBS.d1Expr; congr 1; ring
  obtain ⟨hc, hp⟩ := h1 _ _ _ _ (GBS.d2Expr (GBS.d1Expr (Q1 * S1) K t b1 σ1) σ1 t) rfl hD.symm hs.symm
    e1 rfl
  refine ⟨a, _, _, h, hc, hp, ?_, ?_⟩
  · simp [GBS.call, GBS.new, GBS.checkSigma, GBS.attr, pure, Except.pure, bind, Except.bind]
    field_simp
  · simp [GBS.put, GBS.new, GBS.checkSigma, GBS.attr, pure, Except.pure, bind, Except.bind]
    field_simp
    ring

end

/-- **C42 (exchange option).** With `K = 0` the prices are exactly Margrabe's exchange prices: the
`GBSOption` formula with the second asset as strike, rate `r - b2`, carry `b1 - b2` and the ratio
volatility. -/
theorem C42_exchange (S1 S2 t r b1 b2 σ1 σ2 ρ Q1 Q2 : ℝ) (hN : 0 < Q1 * S1) (h2 : 0 < Q2 * S2) :
    ∃ a c p, kirkCls.construct (kirkKw S1 S2 0 t r b1 b2 σ1 σ2 ρ Q1 Q2) = (a, none) ∧
      KirkClass.call.run a = .ok (.num c) ∧ KirkClass.put.run a = .ok (.num p) ∧
      (GBS.new (Q1 * S1) (Q2 * S2) t (r - b2) (b1 - b2)
        (some √(σ1 ^ 2 + σ2 ^ 2 - 2 * ρ * σ1 * σ2))).call = .ok c ∧
      (GBS.new (Q1 * S1) (Q2 * S2) t (r - b2) (b1 - b2)
        (some √(σ1 ^ 2 + σ2 ^ 2 - 2 * ρ * σ1 * σ2))).put = .ok p := by
  obtain ⟨a, h, -, h1⟩ := kirk_prices S1 S2 0 t r b1 b2 σ1 σ2 ρ Q1 Q2
  have hD : shortLeg S2 0 t r b2 Q2 = Q2 * S2 * exp ((b2 - r) * t) := by simp [shortLeg]
  have hF : share S2 0 t r b2 Q2 = 1 := by
    rw [share, hD]; exact div_self (by positivity)
  have hs : √(ratioVar ρ σ1 (σ2 * share S2 0 t r b2 Q2)) = √(σ1 ^ 2 + σ2 ^ 2 - 2 * ρ * σ1 * σ2) := by
    rw [hF, mul_one]; rfl
  set s := √(σ1 ^ 2 + σ2 ^ 2 - 2 * ρ * σ1 * σ2)
  have e1 : GBS.d1Expr (Q1 * S1) (Q2 * S2) t (b1 - b2) s
      = (log (Q1 * S1 * exp ((b1 - r) * t) / (Q2 * S2 * exp ((b2 - r) * t))) + 0.5 * s ^ 2 * t)
        / (s * √t) := by
    have : Q1 * S1 * exp ((b1 - r) * t) / (Q2 * S2 * exp ((b2 - r) * t))
        = Q1 * S1 / (Q2 * S2) * exp ((b1 - b2) * t) := by
      rw [show (b1 - r) * t = (b1 - b2) * t + (b2 - r) * t by ring, exp_add]
      rw [mul_div_assoc, mul_div_assoc, mul_div_assoc]
      field_simp
    rw [this, log_mul (by positivity) (exp_pos _).ne', log_exp]
    unfold GBS.d1Expr; congr 1; ring
  obtain ⟨hc, hp⟩ := h1 _ _ _ _ (GBS.d2Expr (GBS.d1Expr (Q1 * S1) (Q2 * S2) t (b1 - b2) s) s t) rfl
    hD.symm hs.symm e1 rfl
  have q1 : (b1 - b2 - (r - b2)) * t = (b1 - r) * t := by ring
  have q2 : -(r - b2) * t = (b2 - r) * t := by ring
  have hx : Q2 ≠ 0 := left_ne_zero_of_mul h2.ne'
  have hy : S2 ≠ 0 := right_ne_zero_of_mul h2.ne'
  refine ⟨a, _, _, h, hc, hp, ?_, ?_⟩
  · simp only [GBS.call, GBS.new, GBS.checkSigma, GBS.attr, pure, Except.pure, bind, Except.bind,
      Except.ok.injEq, q1, q2]
    field_simp
  · simp only [GBS.put, GBS.new, GBS.checkSigma, GBS.attr, pure, Except.pure, bind, Except.bind,
      Except.ok.injEq, q1, q2]
    field_simp
    ring

/-- Example for C42: the docstring's option (with `t = 1/10`). -/
theorem C42_example : ∃ a c p,
    kirkCls.construct (kirkKw 122 120 3 (1 / 10) 0.1 0 0 0.2 0.25 0.5 1 1) = (a, none) ∧
    KirkClass.call.run a = .ok (.num c) ∧ KirkClass.put.run a = .ok (.num p) ∧
    c - p = -exp (-(1 / 100)) := by
  obtain ⟨a, c, p, h1, h2, h3, h4⟩ := C42_parity 122 120 3 (1 / 10) 0.1 0 0 0.2 0.25 0.5 1 1
    (by positivity)
  refine ⟨a, c, p, h1, h2, h3, h4.trans ?_⟩
  norm_num
  ring

end Verif.Props
