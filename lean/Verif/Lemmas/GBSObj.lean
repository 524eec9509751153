import Verif.Lemmas.Slice
import Verif.Model.GBS

/-!
The syntax-tree model of `GBSOption` on plain numbers is the model of `Model/GBS.lean`.
-/
set_option linter.unusedSimpArgs false
namespace Verif
open Real

section simps
variable (args a : Attrs) (e e₁ e₂ : Expr)
theorem eval_add : (e₁ + e₂).eval args a = (do
    let v ← e₁.eval args a; let w ← e₂.eval args a; Val.map₂ (· + ·) v w) := rfl
theorem eval_sub : (e₁ - e₂).eval args a = (do
    let v ← e₁.eval args a; let w ← e₂.eval args a; Val.map₂ (· - ·) v w) := rfl
theorem eval_mul : (e₁ * e₂).eval args a = (do
    let v ← e₁.eval args a; let w ← e₂.eval args a; Val.map₂ (· * ·) v w) := rfl
theorem eval_div : (e₁ / e₂).eval args a = (do
    let v ← e₁.eval args a; let w ← e₂.eval args a; Val.map₂ (· / ·) v w) := rfl
theorem eval_neg : (-e).eval args a = (do let v ← e.eval args a; v.map (- ·)) := rfl
theorem eval_one : (1 : Expr).eval args a = .ok (.num 1) := rfl
theorem eval_ofNat (n : ℕ) [n.AtLeastTwo] :
    (OfNat.ofNat n : Expr).eval args a = .ok (.num (OfNat.ofNat n)) := rfl
theorem error_bind {α β : Type} (e : PyErr) (f : α → Except PyErr β) :
    (Except.error e >>= f) = Except.error e := rfl
theorem ok_bind {α β : Type} (v : α) (f : α → Except PyErr β) : (Except.ok v >>= f) = f v := rfl
end simps

/-- Keyword arguments of a `GBSOption`. -/
def gbsKw (S K t r b : ℝ) (σ : Val) : Dict :=
  [("S", .num S), ("K", .num K), ("t", .num t), ("r", .num r), ("b", .num b), ("sigma", σ)]

/-- Building a `GBSOption` from numbers with `K ≠ 0` sets the attributes of `GBS.new`. -/
theorem gbs_construct (S K t r b σ : ℝ) (hK : K ≠ 0) :
    ∃ a, gbsCls.construct (gbsKw S K t r b (.num σ)) = (a, none) ∧
      a "_S" = some (.num S) ∧ a "_K" = some (.num K) ∧ a "_t" = some (.num t) ∧
      a "_r" = some (.num r) ∧ a "_b" = some (.num b) ∧ a "_sigma" = some (.num σ) ∧
      a "_d1" = some (.num (GBS.d1Expr S K t b σ)) ∧
      a "_d2" = some (.num (GBS.d2Expr (GBS.d1Expr S K t b σ) σ t)) := by
  simp [Cls.construct, Cls.init, gbsCls, gbsKw, bindArgs, req, dflt, optionInit, assignParams,
      GBSClass.initD, exec, Expr.eval, isNoneArg, Attrs.set, Expr.log, Expr.sqrt, Val.map, Val.map₂,
      Val.pdiv, ok_bind, List.lookup, eval_add, eval_sub, eval_mul, eval_div, eval_ofNat, hK,
      GBS.d1Expr, GBS.d2Expr]

/-- With `K = 0` the constructor raises `ZeroDivisionError`. -/
theorem gbs_construct_zero (S t r b σ : ℝ) :
    (gbsCls.construct (gbsKw S 0 t r b (.num σ))).2 = some .zeroDivision := by
  simp [Cls.construct, Cls.init, gbsCls, gbsKw, bindArgs, req, dflt, optionInit, assignParams,
      GBSClass.initD, exec, Expr.eval, isNoneArg, Attrs.set, Expr.log, Expr.sqrt, Val.map, Val.map₂,
      Val.pdiv, ok_bind, List.lookup, eval_add, eval_sub, eval_mul, eval_div, eval_ofNat]
  rfl

/-- The attributes of a numeric `GBSOption`. -/
structure IsGBS (a : Attrs) (o : GBS) : Prop where
  S : a "_S" = some (.num o.S)
  K : a "_K" = some (.num o.K)
  t : a "_t" = some (.num o.t)
  r : a "_r" = some (.num o.r)
  b : a "_b" = some (.num o.b)
  sigma : ∃ σ, o.sigma = some σ ∧ a "_sigma" = some (.num σ)
  d1 : ∃ x, o.d1 = some x ∧ a "_d1" = some (.num x)
  d2 : ∃ x, o.d2 = some x ∧ a "_d2" = some (.num x)

theorem isGBS_construct (S K t r b σ : ℝ) (hK : K ≠ 0) :
    ∃ a, gbsCls.construct (gbsKw S K t r b (.num σ)) = (a, none) ∧
      IsGBS a (GBS.new S K t r b (some σ)) := by
  obtain ⟨a, h, h1, h2, h3, h4, h5, h6, h7, h8⟩ := gbs_construct S K t r b σ hK
  exact ⟨a, h, h1, h2, h3, h4, h5, ⟨σ, rfl, h6⟩, ⟨_, rfl, h7⟩, ⟨_, rfl, h8⟩⟩

/-- The syntax-tree methods on such an object return what the model of `Model/GBS.lean` returns. -/
theorem isGBS_methods {a : Attrs} {o : GBS} (h : IsGBS a o) :
    GBSClass.call.run a = o.call.map .num ∧ GBSClass.put.run a = o.put.map .num ∧
    GBSClass.deltaC.run a = (o.delta true).map .num ∧ GBSClass.deltaP.run a = (o.delta false).map .num ∧
    GBSClass.thetaC.run a = (o.theta true).map .num ∧ GBSClass.thetaP.run a = (o.theta false).map .num ∧
    GBSClass.vega.run a = o.vega.map .num ∧
    GBSClass.rhoC.run a = (o.rho true).map .num ∧ GBSClass.rhoP.run a = (o.rho false).map .num ∧
    GBSClass.lambC.run a = (o.lamb true).map .num ∧ GBSClass.lambP.run a = (o.lamb false).map .num ∧
    GBSClass.gamma.run a = o.gamma.map .num ∧
    GBSClass.cOfCC.run a = (o.cOfC true).map .num ∧ GBSClass.cOfCP.run a = (o.cOfC false).map .num := by
  obtain ⟨hS, hK, ht, hr, hb, ⟨σ, hσ, hσ'⟩, ⟨d1, hd1, hd1'⟩, d2, hd2, hd2'⟩ := h
  refine ⟨?_, ?_, ?_, ?_, ?_, ?_, ?_, ?_, ?_, ?_, ?_, ?_, ?_, ?_⟩
  all_goals
    simp [Meth.run, GBSClass.call, GBSClass.put, GBSClass.deltaC, GBSClass.deltaP, GBSClass.thetaC,
      GBSClass.thetaP, GBSClass.theta1, GBSClass.vega, GBSClass.rhoC, GBSClass.rhoP, GBSClass.lambC,
      GBSClass.lambP, GBSClass.gamma, GBSClass.cOfCC, GBSClass.cOfCP, isNoneArg, hσ', eval_add,
      eval_sub, eval_mul, eval_div, eval_neg, eval_one, eval_ofNat, Expr.exp, Expr.cnd, Expr.ndf,
      Expr.sqrt, Expr.eval, hS, hK, ht, hr, hb, hd1', hd2', ok_bind, Val.map, Val.map₂, Val.nonzero,
      GBS.call, GBS.put, GBS.delta, GBS.theta, GBS.vega, GBS.rho, GBS.lamb, GBS.gamma, GBS.cOfC,
      GBS.checkSigma, GBS.attr, hσ, hd1, hd2, pure, Except.pure, Except.map]
  all_goals
    split_ifs <;> simp [Except.map]

end Verif
