import Verif.Model.FDM2
import Verif.Props.Kirk
import Verif.Props.MS
import Verif.Props.BS93
import Verif.Props.FdmAnalytic
import Verif.Props.Tree3d
import Verif.Props.Tree
import Mathlib.Analysis.SpecialFunctions.Trigonometric.DerivHyp

/-!
# C90: greeks reported without a call/put flag

`vega()` and `gamma()` take no `call` argument; the code comments "same for both call and put options" and differentiates
the call. Here: for which classes this is true.
-/
set_option linter.unusedSimpArgs false
namespace Verif.Props
open Verif Verif.Spec Real Filter Topology Set

/-! ### Finite-difference rules -/

theorem linearRule_nodes {f g : Val → Except PyErr Val} {α β : ℝ} :
    ∀ (l : List (ℝ × ℝ)), (∀ p ∈ l, ∃ u v, f (.num p.1) = .ok (.num u) ∧ g (.num p.1) = .ok (.num v) ∧ u - v = α + β * p.1) →
    ∀ (a b : ℝ), ∃ U V, (linearRule l a).runPure f = .ok (.num U) ∧ (linearRule l b).runPure g = .ok (.num V) ∧
      U - V = (a - b) + α * (l.map (·.2)).sum + β * (l.map (fun p => p.2 * p.1)).sum := by
  intro l
  induction l with
  | nil => intro _ a b; exact ⟨a, b, rfl, rfl, by simp⟩
  | cons p l ih =>
    obtain ⟨x, w⟩ := p
    intro h a b
    obtain ⟨u, v, hu, hv, huv⟩ := h (x, w) (by simp)
    obtain ⟨U, V, h1, h2, h3⟩ := ih (fun p hp => h p (by simp [hp])) (a + w * u) (b + w * v)
    refine ⟨U, V, ?_, ?_, ?_⟩
    · simp only [linearRule, Rule.runPure, hu]; exact h1
    · simp only [linearRule, Rule.runPure, hv]; exact h2
    · rw [h3]
      simp only [List.map_cons, List.sum_cons]
      linear_combination w * huv

/-- What a scheme computes from the prices of freshly built options in which one parameter is replaced. -/
noncomputable def schemeValue (L : LinearScheme) (c : Cls) (m : Meth) (kw : Dict) (wrt : String) (n : ℕ) (x : ℝ) :
    Except PyErr Val :=
  (L.diff n none (.num x)).runPure (c.freshPrice m.run kw wrt)

theorem schemeValue_parity (L : LinearScheme) {c : Cls} {mc mp : Meth} {kw : Dict} {wrt : String} {n : ℕ} {x α β : ℝ}
    (hn : n = 1 ∨ n = 2)
    (h : ∀ p ∈ L.nodes n none x, ∃ u v, c.freshPrice mc.run kw wrt (.num p.1) = .ok (.num u) ∧
      c.freshPrice mp.run kw wrt (.num p.1) = .ok (.num v) ∧ u - v = α + β * p.1) :
    ∃ U V, schemeValue L c mc kw wrt n x = .ok (.num U) ∧ schemeValue L c mp kw wrt n x = .ok (.num V) ∧
      U - V = if n = 1 then β else 0 := by
  obtain ⟨U, V, h1, h2, h3⟩ := linearRule_nodes (L.nodes n none x) h 0 0
  refine ⟨U, V, h1, h2, ?_⟩
  rw [h3, L.const]
  rcases hn with rfl | rfl
  · rw [L.slope₁]; simp
  · rw [L.slope₂]; simp

/-- Evaluation of a difference quotient on the heap. -/
theorem der_harmless (x : FdmCtx) (hc : x.cls ∈ classes) (hcl : x.cls.Respects x.call) (hpt : x.cls.Respects x.put)
    {a : Attrs} {d : Dict} (hd : x.cls.getParams a = .ok d) {h : Heap} (hi : x.addr < h.length)
    (ha : h.getD x.addr Attrs.empty = a) (wrt attr : String) (isCall : Bool) (n : ℕ) {y : ℝ}
    (hy : a attr = some (.num y)) {U : ℝ}
    (hU : (x.D n none (.num y)).runPure (x.cls.freshPrice (if isCall then x.call else x.put) d wrt) = .ok (.num U)) :
    Harmless (x.der wrt attr isCall n) h (.ok (.num U)) := by
  have := partialAt_harmless hc x.D hcl hpt hd hi ha wrt attr isCall n none 1
  simpa [FdmCtx.der, fdSpec, attrOf, hy, ok_bind, hU, scale, Val.map₂] using this

/-! ### Kirk's approximation -/

section kirk
variable (S1 S2 K t r b1 b2 σ1 σ2 ρ Q1 Q2 : ℝ)

theorem kirk_state {a : Attrs} (ha : kirkCls.construct (kirkKw S1 S2 K t r b1 b2 σ1 σ2 ρ Q1 Q2) = (a, none)) :
    kirkCls.getParams a = .ok (kirkKw S1 S2 K t r b1 b2 σ1 σ2 ρ Q1 Q2) ∧ a "_S1" = some (.num S1) ∧
      a "_S2" = some (.num S2) ∧ a "_sigma1" = some (.num σ1) ∧ a "_sigma2" = some (.num σ2) := by
  simp [Cls.construct, Cls.init, kirkCls, kirkKw, bindArgs, req, dflt, assignParams, KirkClass.initD,
      KirkClass.F, exec, Expr.eval, isNoneArg, Attrs.set, Expr.log, Expr.sqrt, Expr.sq, Expr.exp, Val.map,
      Val.map₂, Val.pdiv, ok_bind, List.lookup, eval_add, eval_sub, eval_mul, eval_div, eval_ofNat,
      eval_one, eval_neg] at ha
  subst ha
  simp [Cls.getParams, kirkCls, kirkKw, pure, Except.pure, List.mapM_cons, ok_bind]

theorem kirk_fresh (hD : Q2 * S2 * exp ((b2 - r) * t) + K * exp (-r * t) ≠ 0) {kw : Dict} {wrt : String} {x : ℝ}
    (hkw : Dict.insert kw wrt (.num x) = kirkKw S1 S2 K t r b1 b2 σ1 σ2 ρ Q1 Q2) :
    ∃ u v, kirkCls.freshPrice KirkClass.call.run kw wrt (.num x) = .ok (.num u) ∧
      kirkCls.freshPrice KirkClass.put.run kw wrt (.num x) = .ok (.num v) ∧
      u - v = Q1 * S1 * exp ((b1 - r) * t) - Q2 * S2 * exp ((b2 - r) * t) - K * exp (-r * t) := by
  obtain ⟨a, c, p, h, h1, h2, h3⟩ := C42_parity S1 S2 K t r b1 b2 σ1 σ2 ρ Q1 Q2 hD
  refine ⟨c, p, ?_, ?_, h3⟩
  all_goals
    unfold Cls.freshPrice
    rw [show kirkCls.drop.foldl Dict.del (Dict.insert kw wrt (.num x)) = _ from hkw, h]
    assumption

/-- **C90, `SpreadApproxOption`.** At any address of any heap and for every scheme exact on affine functions (whose nodes
keep the short side nonzero): `vega()` and `gamma()`, computed from the call, are what the scheme gives on the put; the two
deltas of call and put differ by the parity slopes. -/
theorem C90_kirk (L : LinearScheme) (hD : Q2 * S2 * exp ((b2 - r) * t) + K * exp (-r * t) ≠ 0)
    (hN : ∀ n, ∀ p ∈ L.nodes n none S2, Q2 * p.1 * exp ((b2 - r) * t) + K * exp (-r * t) ≠ 0) {a : Attrs}
    (ha : kirkCls.construct (kirkKw S1 S2 K t r b1 b2 σ1 σ2 ρ Q1 Q2) = (a, none)) (h : Heap) (i : ℕ)
    (hi : i < h.length) (hat : h.getD i Attrs.empty = a) :
    let kw := kirkKw S1 S2 K t r b1 b2 σ1 σ2 ρ Q1 Q2
    ∃ v1 v2 g1 g2 c1 c2 p1 p2,
      (kirkVega L.diff i h).1 = .ok [("sigma1", .num v1), ("sigma2", .num v2)] ∧
      schemeValue L kirkCls KirkClass.put kw "sigma1" 1 σ1 = .ok (.num v1) ∧
      schemeValue L kirkCls KirkClass.put kw "sigma2" 1 σ2 = .ok (.num v2) ∧
      (kirkGamma L.diff i h).1 = .ok [("S1", .num g1), ("S2", .num g2)] ∧
      schemeValue L kirkCls KirkClass.put kw "S1" 2 S1 = .ok (.num g1) ∧
      schemeValue L kirkCls KirkClass.put kw "S2" 2 S2 = .ok (.num g2) ∧
      (kirkDelta L.diff i true h).1 = .ok [("S1", .num c1), ("S2", .num c2)] ∧
      (kirkDelta L.diff i false h).1 = .ok [("S1", .num p1), ("S2", .num p2)] ∧
      c1 - p1 = Q1 * exp ((b1 - r) * t) ∧ c2 - p2 = -(Q2 * exp ((b2 - r) * t)) := by
  intro kw
  obtain ⟨hd, e1, e2, e3, e4⟩ := kirk_state S1 S2 K t r b1 b2 σ1 σ2 ρ Q1 Q2 ha
  have hc : kirkCls ∈ classes := by simp [classes]
  have hcl := (C10_prices_respect hc).1 KirkClass.call (by simp [methodsOf, kirkCls])
  have hpt := (C10_prices_respect hc).1 KirkClass.put (by simp [methodsOf, kirkCls])
  have ins1 : ∀ x, Dict.insert kw "S1" (.num x) = kirkKw x S2 K t r b1 b2 σ1 σ2 ρ Q1 Q2 := fun x => by
    simp [kw, kirkKw, Dict.insert]
  have ins2 : ∀ x, Dict.insert kw "S2" (.num x) = kirkKw S1 x K t r b1 b2 σ1 σ2 ρ Q1 Q2 := fun x => by
    simp [kw, kirkKw, Dict.insert]
  have ins3 : ∀ x, Dict.insert kw "sigma1" (.num x) = kirkKw S1 S2 K t r b1 b2 x σ2 ρ Q1 Q2 := fun x => by
    simp [kw, kirkKw, Dict.insert]
  have ins4 : ∀ x, Dict.insert kw "sigma2" (.num x) = kirkKw S1 S2 K t r b1 b2 σ1 x ρ Q1 Q2 := fun x => by
    simp [kw, kirkKw, Dict.insert]
  have hS1 : ∀ n, n = 1 ∨ n = 2 → ∃ U V, schemeValue L kirkCls KirkClass.call kw "S1" n S1 = .ok (.num U) ∧
      schemeValue L kirkCls KirkClass.put kw "S1" n S1 = .ok (.num V) ∧
      U - V = if n = 1 then Q1 * exp ((b1 - r) * t) else 0 := fun n hn =>
    schemeValue_parity L (α := -(Q2 * S2 * exp ((b2 - r) * t)) - K * exp (-r * t)) hn fun p _ => by
      obtain ⟨u, v, h1, h2, h3⟩ := kirk_fresh p.1 S2 K t r b1 b2 σ1 σ2 ρ Q1 Q2 hD (ins1 p.1)
      exact ⟨u, v, h1, h2, by rw [h3]; ring⟩
  have hS2 : ∀ n, n = 1 ∨ n = 2 → ∃ U V, schemeValue L kirkCls KirkClass.call kw "S2" n S2 = .ok (.num U) ∧
      schemeValue L kirkCls KirkClass.put kw "S2" n S2 = .ok (.num V) ∧
      U - V = if n = 1 then -(Q2 * exp ((b2 - r) * t)) else 0 := fun n hn =>
    schemeValue_parity L (α := Q1 * S1 * exp ((b1 - r) * t) - K * exp (-r * t)) hn fun p hp => by
      obtain ⟨u, v, h1, h2, h3⟩ := kirk_fresh S1 p.1 K t r b1 b2 σ1 σ2 ρ Q1 Q2 (hN n p hp) (ins2 p.1)
      exact ⟨u, v, h1, h2, by rw [h3]; ring⟩
  obtain ⟨v1, v1', x1, x2, x3⟩ := schemeValue_parity L (c := kirkCls) (mc := KirkClass.call) (mp := KirkClass.put)
    (kw := kw) (wrt := "sigma1") (n := 1) (x := σ1) (β := 0)
    (α := Q1 * S1 * exp ((b1 - r) * t) - Q2 * S2 * exp ((b2 - r) * t) - K * exp (-r * t)) (Or.inl rfl) fun p _ => by
      obtain ⟨u, v, h1, h2, h3⟩ := kirk_fresh S1 S2 K t r b1 b2 p.1 σ2 ρ Q1 Q2 hD (ins3 p.1)
      exact ⟨u, v, h1, h2, by rw [h3]; ring⟩
  obtain ⟨v2, v2', y1, y2, y3⟩ := schemeValue_parity L (c := kirkCls) (mc := KirkClass.call) (mp := KirkClass.put)
    (kw := kw) (wrt := "sigma2") (n := 1) (x := σ2) (β := 0)
    (α := Q1 * S1 * exp ((b1 - r) * t) - Q2 * S2 * exp ((b2 - r) * t) - K * exp (-r * t)) (Or.inl rfl) fun p _ => by
      obtain ⟨u, v, h1, h2, h3⟩ := kirk_fresh S1 S2 K t r b1 b2 σ1 p.1 ρ Q1 Q2 hD (ins4 p.1)
      exact ⟨u, v, h1, h2, by rw [h3]; ring⟩
  simp only [if_true] at x3 y3
  obtain rfl : v1 = v1' := by linarith
  obtain rfl : v2 = v2' := by linarith
  obtain ⟨g1, g1', z1, z2, z3⟩ := hS1 2 (Or.inr rfl)
  obtain ⟨g2, g2', w1, w2, w3⟩ := hS2 2 (Or.inr rfl)
  rw [if_neg (by norm_num)] at z3 w3
  obtain rfl : g1 = g1' := by linarith
  obtain rfl : g2 = g2' := by linarith
  obtain ⟨c1, p1, q1, q2, q3⟩ := hS1 1 (Or.inl rfl)
  obtain ⟨c2, p2, s1, s2, s3⟩ := hS2 1 (Or.inl rfl)
  rw [if_pos rfl] at q3 s3
  have two : ∀ {m1 m2 : HeapM Val} {n1 n2 : String} {u v : ℝ}, (∀ h', i < h'.length → h'.getD i Attrs.empty = a →
        Harmless m1 h' (.ok (.num u))) → (∀ h', i < h'.length → h'.getD i Attrs.empty = a → Harmless m2 h' (.ok (.num v))) →
      ((do let d1 ← m1; let d2 ← m2; return [(n1, d1), (n2, d2)] : HeapM Dict) h).1 = .ok [(n1, .num u), (n2, .num v)] := by
    intro m1 m2 n1 n2 u v h1 h2
    obtain ⟨ex, e⟩ := Harmless.bind (k := fun d1 => (do let d2 ← m2; return [(n1, d1), (n2, d2)] : HeapM Dict))
      (r' := fun d1 => .ok [(n1, d1), (n2, .num v)]) (h1 h hi hat) fun d1 ex _ => by
        have hi1 : i < (h ++ ex).length := by simp; omega
        have ha1 : (h ++ ex).getD i Attrs.empty = a := by rw [getD_append_left hi, hat]
        exact Harmless.bind (r' := fun d2 => .ok [(n1, d1), (n2, d2)]) (h2 _ hi1 ha1)
          fun d2 ex2 _ => Harmless.lift _ _
    rw [e]; rfl
  refine ⟨v1, v2, g1, g2, c1, c2, p1, p2, ?_, x2, y2, ?_, z2, w2, ?_, ?_, q3, s3⟩
  · exact two (fun h' i1 i2 => der_harmless (kirkCtx L.diff i) hc hcl hpt hd i1 i2 _ _ _ _ e3 x1)
      (fun h' i1 i2 => der_harmless (kirkCtx L.diff i) hc hcl hpt hd i1 i2 _ _ _ _ e4 y1)
  · exact two (fun h' i1 i2 => der_harmless (kirkCtx L.diff i) hc hcl hpt hd i1 i2 _ _ _ _ e1 z1)
      (fun h' i1 i2 => der_harmless (kirkCtx L.diff i) hc hcl hpt hd i1 i2 _ _ _ _ e2 w1)
  · exact two (fun h' i1 i2 => der_harmless (kirkCtx L.diff i) hc hcl hpt hd i1 i2 _ _ _ _ e1 q1)
      (fun h' i1 i2 => der_harmless (kirkCtx L.diff i) hc hcl hpt hd i1 i2 _ _ _ _ e2 s1)
  · exact two (fun h' i1 i2 => der_harmless (kirkCtx L.diff i) hc hcl hpt hd i1 i2 _ _ _ _ e1 q2)
      (fun h' i1 i2 => der_harmless (kirkCtx L.diff i) hc hcl hpt hd i1 i2 _ _ _ _ e2 s2)
end kirk

/-! ### Miltersen–Schwartz -/

section ms
variable (Pt FT K t T σS σE σF ρSE ρSF ρEF κE κF : ℝ)

theorem ms_state {a : Attrs} (ha : msCls.construct (msKw Pt FT K t T σS σE σF ρSE ρSF ρEF κE κF) = (a, none))
    (hK : K ≠ 0) (hE : κE ≠ 0) (hF : κF ≠ 0) (hEF : κE + κF ≠ 0) :
    msCls.getParams a = .ok (msKw Pt FT K t T σS σE σF ρSE ρSF ρEF κE κF) ∧ a "_FT" = some (.num FT) ∧
      a "_sigmaS" = some (.num σS) ∧ a "_sigmaE" = some (.num σE) ∧ a "_sigmaF" = some (.num σF) := by
  simp [Cls.construct, Cls.init, msCls, msKw, bindArgs, req, dflt, assignParams,
      exec, Expr.eval, isNoneArg, Attrs.set, Expr.log, Expr.sqrt, Expr.sq, Expr.exp, Val.map, Val.map₂,
      Val.pdiv, ok_bind, List.lookup, eval_add, eval_sub, eval_mul, eval_div, eval_ofNat, eval_one,
      eval_neg, hK, hE, hF, hEF, MSClass.vzExpr, MSClass.vxzExpr] at ha
  subst ha
  simp [Cls.getParams, msCls, msKw, pure, Except.pure, List.mapM_cons, ok_bind]

theorem ms_fresh (hK : K ≠ 0) (hE : κE ≠ 0) (hF : κF ≠ 0) (hEF : κE + κF ≠ 0) {kw : Dict} {wrt : String} {x : ℝ}
    (hkw : Dict.insert kw wrt (.num x) = msKw Pt FT K t T σS σE σF ρSE ρSF ρEF κE κF) :
    ∃ u v, msCls.freshPrice MSClass.call.run kw wrt (.num x) = .ok (.num u) ∧
      msCls.freshPrice MSClass.put.run kw wrt (.num x) = .ok (.num v) ∧
      u - v = Pt * (FT * exp (-MS.covariance σS σE σF ρSE ρSF ρEF κE κF t T) - K) := by
  obtain ⟨a, c, p, h, h1, h2, h3⟩ := C16_parity Pt FT K t T σS σE σF ρSE ρSF ρEF κE κF hK hE hF hEF
  refine ⟨c, p, ?_, ?_, h3⟩
  all_goals
    unfold Cls.freshPrice
    rw [show msCls.drop.foldl Dict.del (Dict.insert kw wrt (.num x)) = _ from hkw, h]
    assumption

/-- **C90, `MiltersenSchwartzOption.gamma`.** Computed from the call, it is what the scheme gives on the put; delta of call
and put differ by `Pt e^{-cov}`. -/
theorem C90_ms_gamma (L : LinearScheme) (hK : K ≠ 0) (hE : κE ≠ 0) (hF : κF ≠ 0) (hEF : κE + κF ≠ 0) {a : Attrs}
    (ha : msCls.construct (msKw Pt FT K t T σS σE σF ρSE ρSF ρEF κE κF) = (a, none)) (h : Heap) (i : ℕ)
    (hi : i < h.length) (hat : h.getD i Attrs.empty = a) :
    ∃ g c p, (msGamma L.diff i h).1 = .ok (.num g) ∧
      schemeValue L msCls MSClass.put (msKw Pt FT K t T σS σE σF ρSE ρSF ρEF κE κF) "FT" 2 FT = .ok (.num g) ∧
      (msDelta L.diff i true h).1 = .ok (.num c) ∧ (msDelta L.diff i false h).1 = .ok (.num p) ∧
      c - p = Pt * exp (-MS.covariance σS σE σF ρSE ρSF ρEF κE κF t T) := by
  obtain ⟨hd, e1, -⟩ := ms_state Pt FT K t T σS σE σF ρSE ρSF ρEF κE κF ha hK hE hF hEF
  set kw := msKw Pt FT K t T σS σE σF ρSE ρSF ρEF κE κF with hkw
  have hc : msCls ∈ classes := by simp [classes]
  have hcl := (C10_prices_respect hc).1 MSClass.call (by simp [methodsOf, msCls])
  have hpt := (C10_prices_respect hc).1 MSClass.put (by simp [methodsOf, msCls])
  have ins : ∀ x, Dict.insert kw "FT" (.num x) = msKw Pt x K t T σS σE σF ρSE ρSF ρEF κE κF := fun x => by
    simp [hkw, msKw, Dict.insert]
  have hS : ∀ n, n = 1 ∨ n = 2 → ∃ U V, schemeValue L msCls MSClass.call kw "FT" n FT = .ok (.num U) ∧
      schemeValue L msCls MSClass.put kw "FT" n FT = .ok (.num V) ∧
      U - V = if n = 1 then Pt * exp (-MS.covariance σS σE σF ρSE ρSF ρEF κE κF t T) else 0 := fun n hn =>
    schemeValue_parity L (α := -(Pt * K)) hn fun p _ => by
      obtain ⟨u, v, h1, h2, h3⟩ := ms_fresh Pt p.1 K t T σS σE σF ρSE ρSF ρEF κE κF hK hE hF hEF (ins p.1)
      exact ⟨u, v, h1, h2, by rw [h3]; ring⟩
  obtain ⟨g, g', z1, z2, z3⟩ := hS 2 (Or.inr rfl)
  rw [if_neg (by norm_num)] at z3
  obtain rfl : g = g' := by linarith
  obtain ⟨c, p, q1, q2, q3⟩ := hS 1 (Or.inl rfl)
  rw [if_pos rfl] at q3
  refine ⟨g, c, p, ?_, z2, ?_, ?_, q3⟩
  · obtain ⟨ex, e⟩ := der_harmless (msCtx L.diff i) hc hcl hpt hd hi hat _ _ true 2 e1 z1
    exact congrArg Prod.fst e
  · obtain ⟨ex, e⟩ := der_harmless (msCtx L.diff i) hc hcl hpt hd hi hat _ _ true 1 e1 q1
    exact congrArg Prod.fst e
  · obtain ⟨ex, e⟩ := der_harmless (msCtx L.diff i) hc hcl hpt hd hi hat _ _ false 1 e1 q2
    exact congrArg Prod.fst e

/-- **C90, `MiltersenSchwartzOption.vega`.** The three entries are, in this order, what the scheme gives on the call for
`sigmaS`, `sigmaE` and `sigmaF`. -/
theorem C90_ms_vega_call (L : LinearScheme) (hK : K ≠ 0) (hE : κE ≠ 0) (hF : κF ≠ 0) (hEF : κE + κF ≠ 0) {a : Attrs}
    (ha : msCls.construct (msKw Pt FT K t T σS σE σF ρSE ρSF ρEF κE κF) = (a, none)) (h : Heap) (i : ℕ)
    (hi : i < h.length) (hat : h.getD i Attrs.empty = a) :
    let kw := msKw Pt FT K t T σS σE σF ρSE ρSF ρEF κE κF
    ∃ vS vE vF, (msVega L.diff i h).1 = .ok [.num vS, .num vE, .num vF] ∧
      schemeValue L msCls MSClass.call kw "sigmaS" 1 σS = .ok (.num vS) ∧
      schemeValue L msCls MSClass.call kw "sigmaE" 1 σE = .ok (.num vE) ∧
      schemeValue L msCls MSClass.call kw "sigmaF" 1 σF = .ok (.num vF) := by
  intro kw
  obtain ⟨hd, -, e1, e2, e3⟩ := ms_state Pt FT K t T σS σE σF ρSE ρSF ρEF κE κF ha hK hE hF hEF
  have hc : msCls ∈ classes := by simp [classes]
  have hcl := (C10_prices_respect hc).1 MSClass.call (by simp [methodsOf, msCls])
  have hpt := (C10_prices_respect hc).1 MSClass.put (by simp [methodsOf, msCls])
  have ex : ∀ wrt x, (∀ y, ∃ u, msCls.freshPrice MSClass.call.run kw wrt (.num y) = .ok (.num u)) →
      ∃ U, schemeValue L msCls MSClass.call kw wrt 1 x = .ok (.num U) := fun wrt x hw => by
    obtain ⟨U, -, hU, -⟩ := schemeValue_parity L (c := msCls) (mc := MSClass.call) (mp := MSClass.call) (kw := kw)
      (wrt := wrt) (n := 1) (x := x) (α := 0) (β := 0) (Or.inl rfl) fun p _ => by
        obtain ⟨u, hu⟩ := hw p.1
        exact ⟨u, u, hu, hu, by ring⟩
    exact ⟨U, hU⟩
  obtain ⟨vS, hS⟩ := ex "sigmaS" σS fun y => by
    obtain ⟨u, -, h, -⟩ := ms_fresh Pt FT K t T y σE σF ρSE ρSF ρEF κE κF hK hE hF hEF (kw := kw) (wrt := "sigmaS")
      (x := y) (by simp [kw, msKw, Dict.insert])
    exact ⟨u, h⟩
  obtain ⟨vE, hE'⟩ := ex "sigmaE" σE fun y => by
    obtain ⟨u, -, h, -⟩ := ms_fresh Pt FT K t T σS y σF ρSE ρSF ρEF κE κF hK hE hF hEF (kw := kw) (wrt := "sigmaE")
      (x := y) (by simp [kw, msKw, Dict.insert])
    exact ⟨u, h⟩
  obtain ⟨vF, hF'⟩ := ex "sigmaF" σF fun y => by
    obtain ⟨u, -, h, -⟩ := ms_fresh Pt FT K t T σS σE y ρSE ρSF ρEF κE κF hK hE hF hEF (kw := kw) (wrt := "sigmaF")
      (x := y) (by simp [kw, msKw, Dict.insert])
    exact ⟨u, h⟩
  refine ⟨vS, vE, vF, ?_, hS, hE', hF'⟩
  have at_ : ∀ {h' : Heap} {ex : Heap}, (i < h'.length ∧ h'.getD i Attrs.empty = a) →
      i < (h' ++ ex).length ∧ (h' ++ ex).getD i Attrs.empty = a := by
    rintro h' ex ⟨h1, h2⟩
    exact ⟨by simp; omega, by rw [getD_append_left h1, h2]⟩
  have dS := fun (h' : Heap) (hh : i < h'.length ∧ h'.getD i Attrs.empty = a) =>
    der_harmless (msCtx L.diff i) hc hcl hpt hd hh.1 hh.2 "sigmaS" "_sigmaS" true 1 e1 hS
  have dE := fun (h' : Heap) (hh : i < h'.length ∧ h'.getD i Attrs.empty = a) =>
    der_harmless (msCtx L.diff i) hc hcl hpt hd hh.1 hh.2 "sigmaE" "_sigmaE" true 1 e2 hE'
  have dF := fun (h' : Heap) (hh : i < h'.length ∧ h'.getD i Attrs.empty = a) =>
    der_harmless (msCtx L.diff i) hc hcl hpt hd hh.1 hh.2 "sigmaF" "_sigmaF" true 1 e3 hF'
  obtain ⟨ex, e⟩ : Harmless (msVega L.diff i) h (.ok [.num vS, .num vE, .num vF]) := by
    refine Harmless.bind (r' := fun s => .ok [s, .num vE, .num vF]) (dS h ⟨hi, hat⟩) fun s ex _ => ?_
    have h1 := at_ (ex := ex) ⟨hi, hat⟩
    refine Harmless.bind (r' := fun e => .ok [s, e, .num vF]) (dE _ h1) fun e ex _ => ?_
    have h2 := at_ (ex := ex) h1
    refine Harmless.bind (r' := fun f => .ok [s, e, f]) (dF _ h2) fun f ex _ => ?_
    have h3 := at_ (ex := ex) h2
    exact Harmless.bind (r' := fun _ => .ok [s, e, f]) (dS _ h3) fun _ ex _ => Harmless.lift _ _
  rw [e]

end ms

/-! ### Derivatives -/

/-- `g` is the second derivative of `F` at `x`. -/
def SecondDeriv (F : ℝ → ℝ) (g x : ℝ) : Prop :=
  ∃ F' : ℝ → ℝ, (∀ᶠ y in 𝓝 x, HasDerivAt F (F' y) y) ∧ HasDerivAt F' g x

theorem slope_of_diff {C P H : ℝ → ℝ} {x c p h : ℝ} (hH : ∀ᶠ s in 𝓝 x, C s - P s = H s) (hh : HasDerivAt H h x)
    (hc : HasDerivAt C c x) (hp : HasDerivAt P p x) : c - p = h := by
  have h1 : HasDerivAt (fun s => C s - P s) (c - p) x := hc.sub hp
  exact (h1.congr_of_eventuallyEq (hH.mono fun s hs => hs.symm)).unique hh

theorem same_slope {C P : ℝ → ℝ} {x k : ℝ} (h : ∀ᶠ s in 𝓝 x, C s - P s = k) (v : ℝ) :
    HasDerivAt C v x ↔ HasDerivAt P v x := by
  constructor <;> intro hd
  · have := hd.sub_const k
    exact this.congr_of_eventuallyEq (h.mono fun s hs => by simp only; linarith)
  · have := hd.add_const k
    exact this.congr_of_eventuallyEq (h.mono fun s hs => by simp only; linarith)

theorem same_second {C P : ℝ → ℝ} {x α β : ℝ} (h : ∀ᶠ s in 𝓝 x, C s - P s = α + β * s) (g : ℝ) :
    SecondDeriv C g x ↔ SecondDeriv P g x := by
  have lin : ∀ y, HasDerivAt (fun s : ℝ => α + β * s) β y := fun y => by
    simpa using ((hasDerivAt_id y).const_mul β).const_add α
  have h' := h.eventually_nhds
  constructor <;> rintro ⟨F, h1, h2⟩
  · refine ⟨fun y => F y - β, ?_, h2.sub_const β⟩
    filter_upwards [h1, h'] with y hy hy'
    have := hy.fun_sub (lin y)
    exact this.congr_of_eventuallyEq (hy'.mono fun s hs => by simp only; linarith)
  · refine ⟨fun y => F y + β, ?_, h2.add_const β⟩
    filter_upwards [h1, h'] with y hy hy'
    have := hy.fun_add (lin y)
    exact this.congr_of_eventuallyEq (hy'.mono fun s hs => by simp only; linarith)

/-- `∫₀ᵗ ∫₀^{t-u} e^{-κ v} dv du` is positive. -/
theorem loading_integral_pos {κ t : ℝ} (hκ : κ ≠ 0) (ht : 0 < t) :
    0 < ∫ u in (0:ℝ)..t, MS.loading κ (t - u) := by
  have hcont : Continuous fun u => MS.loading κ (t - u) := by
    simp only [loading_eq hκ]; fun_prop
  refine intervalIntegral.intervalIntegral_pos_of_pos_on (hcont.intervalIntegrable _ _) (fun u hu => ?_) ht
  have : 0 < t - u := by linarith [hu.2]
  exact intervalIntegral.intervalIntegral_pos_of_pos_on ((by fun_prop : Continuous fun v => exp (-κ * v)).intervalIntegrable _ _)
    (fun v _ => exp_pos _) this

/-- The covariance is affine in the spot volatility. -/
theorem covariance_affine {σE σF ρSE ρSF ρEF κE κF t T : ℝ} (hE : κE ≠ 0) (hF : κF ≠ 0) (σS σ0 : ℝ) :
    MS.covariance σS σE σF ρSE ρSF ρEF κE κF t T = MS.covariance σ0 σE σF ρSE ρSF ρEF κE κF t T
      + (σS - σ0) * (ρSF * σF * ∫ u in (0:ℝ)..t, MS.loading κF (t - u)) := by
  unfold MS.covariance
  have i1 : ∀ σ, IntervalIntegrable (fun u => MS.corr ρSE ρSF ρEF (MS.bond σF κF t u) (MS.futures σ σE σF κE κF T u))
      MeasureTheory.volume 0 t := fun σ => by
    apply Continuous.intervalIntegrable
    simp only [MS.corr, MS.futures, MS.bond, loading_eq hE, loading_eq hF]
    fun_prop
  have i2 : IntervalIntegrable (fun u => MS.loading κF (t - u)) MeasureTheory.volume 0 t := by
    apply Continuous.intervalIntegrable
    simp only [loading_eq hF]; fun_prop
  rw [← intervalIntegral.integral_const_mul, ← intervalIntegral.integral_const_mul, ← intervalIntegral.integral_add (i1 _)
    ((i2.const_mul _).const_mul _)]
  refine intervalIntegral.integral_congr fun u _ => ?_
  simp only [MS.corr, MS.futures, MS.bond]
  ring

/-- **C90, `MiltersenSchwartzOption.vega`.** The derivatives of call and put in the spot volatility differ by
`Pt FT e^{-cov} ρSF σF ∫₀ᵗ L(t-u) du`: the first entry of `vega()` is not the put's. -/
theorem C90_ms_vega_gap (Pt FT K t T σS σE σF ρSE ρSF ρEF κE κF : ℝ) (hK : K ≠ 0) (hE : κE ≠ 0) (hF : κF ≠ 0)
    (hEF : κE + κF ≠ 0) {C P : ℝ → ℝ} {c p : ℝ}
    (hC : ∀ᶠ s in 𝓝 σS, msCls.freshPrice MSClass.call.run (msKw Pt FT K t T σS σE σF ρSE ρSF ρEF κE κF) "sigmaS" (.num s)
      = .ok (.num (C s)))
    (hP : ∀ᶠ s in 𝓝 σS, msCls.freshPrice MSClass.put.run (msKw Pt FT K t T σS σE σF ρSE ρSF ρEF κE κF) "sigmaS" (.num s)
      = .ok (.num (P s)))
    (hc : HasDerivAt C c σS) (hp : HasDerivAt P p σS) :
    p - c = Pt * FT * exp (-MS.covariance σS σE σF ρSE ρSF ρEF κE κF t T)
      * (ρSF * σF * ∫ u in (0:ℝ)..t, MS.loading κF (t - u)) := by
  set k := ρSF * σF * ∫ u in (0:ℝ)..t, MS.loading κF (t - u) with hk
  set c0 := MS.covariance σS σE σF ρSE ρSF ρEF κE κF t T with hc0
  have hH : ∀ᶠ s in 𝓝 σS, C s - P s = Pt * (FT * exp (-(c0 + (s - σS) * k)) - K) := by
    filter_upwards [hC, hP] with s h1 h2
    obtain ⟨u, v, h3, h4, h5⟩ := ms_fresh Pt FT K t T s σE σF ρSE ρSF ρEF κE κF hK hE hF hEF
      (kw := msKw Pt FT K t T σS σE σF ρSE ρSF ρEF κE κF) (wrt := "sigmaS") (x := s) (by simp [msKw, Dict.insert])
    rw [h1] at h3; rw [h2] at h4
    injection h3 with h3; injection h3 with h3
    injection h4 with h4; injection h4 with h4
    rw [h3, h4, h5, covariance_affine hE hF s σS]
  have h0 : HasDerivAt (fun s => -(c0 + (s - σS) * k)) (-k) σS := by
    have := ((((hasDerivAt_id σS).sub_const σS).mul_const k).const_add c0).fun_neg
    exact this.congr_deriv (by ring)
  have hh : HasDerivAt (fun s => Pt * (FT * exp (-(c0 + (s - σS) * k)) - K)) (Pt * (FT * (exp (-c0) * -k))) σS := by
    have := ((h0.exp.const_mul FT).sub_const K).const_mul Pt
    simpa using this
  have := slope_of_diff hH hh hc hp
  linear_combination -this

/-- … so no number is the vega of both, unless the forward rate is deterministic or uncorrelated with the spot. -/
theorem C90_ms_vega_fails (Pt FT K t T σS σE σF ρSE ρSF ρEF κE κF : ℝ) (hPt : Pt ≠ 0) (hFT : FT ≠ 0) (hK : K ≠ 0)
    (ht : 0 < t) (hσ : σF ≠ 0) (hρ : ρSF ≠ 0) (hE : κE ≠ 0) (hF : κF ≠ 0)
    (hEF : κE + κF ≠ 0) {C P : ℝ → ℝ}
    (hC : ∀ᶠ s in 𝓝 σS, msCls.freshPrice MSClass.call.run (msKw Pt FT K t T σS σE σF ρSE ρSF ρEF κE κF) "sigmaS" (.num s)
      = .ok (.num (C s)))
    (hP : ∀ᶠ s in 𝓝 σS, msCls.freshPrice MSClass.put.run (msKw Pt FT K t T σS σE σF ρSE ρSF ρEF κE κF) "sigmaS" (.num s)
      = .ok (.num (P s))) : ¬ ∃ v, HasDerivAt C v σS ∧ HasDerivAt P v σS := by
  rintro ⟨v, h1, h2⟩
  have := C90_ms_vega_gap Pt FT K t T σS σE σF ρSE ρSF ρEF κE κF hK hE hF hEF hC hP h1 h2
  rw [sub_self] at this
  have hi := (loading_integral_pos hF ht).ne'
  have := this.symm
  simp only [mul_eq_zero, hPt, hFT, hσ, hρ, hi, (exp_pos _).ne', or_self] at this

/-! ### Trees -/

open _root_.Verif.Tree in
/-- **C90, European CRR and TIAN trees.** A number is the derivative of the call in the volatility iff it is that of the
put, and likewise for the second derivative in the spot. -/
theorem C90_tree (c : Tree.Cls) (hc : c = .crr ∨ c = .tian) (o : Tree.Opt) (h : TreeValid o) (hty : o.type = "european")
    {C P C' P' : ℝ → ℝ} (hC : ∀ s > 0, Tree.price c { o with sigma := s } true = .ok (C s))
    (hP : ∀ s > 0, Tree.price c { o with sigma := s } false = .ok (P s))
    (hC' : ∀ s, Tree.price c { o with S := s } true = .ok (C' s))
    (hP' : ∀ s, Tree.price c { o with S := s } false = .ok (P' s)) :
    (∀ v, HasDerivAt C v o.sigma ↔ HasDerivAt P v o.sigma) ∧
      ∀ g, SecondDeriv C' g o.S ↔ SecondDeriv P' g o.S := by
  constructor
  · refine same_slope (k := o.S * exp ((o.b - o.r) * o.t) - o.K * exp (-o.r * o.t)) ?_
    filter_upwards [lt_mem_nhds h.sigma] with s hs
    obtain ⟨x, y, h1, h2, h3⟩ := C19_parity c hc { o with sigma := s } ⟨h.t, hs, h.n⟩ hty
    rw [hC s hs] at h1; rw [hP s hs] at h2
    injection h1 with h1; injection h2 with h2
    rw [h1, h2, h3]
  · refine same_second (α := -(o.K * exp (-o.r * o.t))) (β := exp ((o.b - o.r) * o.t)) (Eventually.of_forall fun s => ?_)
    obtain ⟨x, y, h1, h2, h3⟩ := C19_parity c hc { o with S := s } ⟨h.t, h.sigma, h.n⟩ hty
    rw [hC' s] at h1; rw [hP' s] at h2
    injection h1 with h1; injection h2 with h2
    rw [h1, h2, h3]; ring

theorem sinh_lt_mul_cosh {z : ℝ} (hz : 0 < z) : sinh z < z * cosh z := by
  obtain ⟨c, hc, e⟩ := exists_hasDerivAt_eq_slope sinh cosh hz (by fun_prop) (fun x _ => hasDerivAt_sinh x)
  rw [sinh_zero, sub_zero, sub_zero, eq_div_iff hz.ne'] at e
  have : cosh c < cosh z := cosh_lt_cosh.2 (by rw [abs_of_pos hc.1, abs_of_pos hz]; exact hc.2)
  nlinarith

/-- The forward of a lattice with equal probabilities decreases with the volatility. -/
theorem deriv_forward {c t s : ℝ} {n : ℕ} (ht : 0 < t) (hs : 0 < s) (hn : 0 < n) :
    ∃ m < 0, HasDerivAt (fun x => exp ((c - x ^ 2 / 2) * t) * cosh (x * √(t / n)) ^ n) m s := by
  have hn' : (0:ℝ) < n := by exact_mod_cast hn
  have hd : 0 < √(t / n) := sqrt_pos.2 (by positivity)
  have h1 : HasDerivAt (fun x : ℝ => exp ((c - x ^ 2 / 2) * t)) (exp ((c - s ^ 2 / 2) * t) * (-s * t)) s := by
    have := ((((hasDerivAt_pow 2 s).div_const 2).const_sub c).mul_const t).exp
    refine this.congr_deriv ?_
    simp
  have h2 : HasDerivAt (fun x : ℝ => cosh (x * √(t / n)) ^ n)
      (n * cosh (s * √(t / n)) ^ (n - 1) * (sinh (s * √(t / n)) * √(t / n))) s := by
    have := (((hasDerivAt_id s).mul_const √(t / n)).cosh).pow n
    refine this.congr_deriv ?_
    simp
  refine ⟨_, ?_, h1.mul h2⟩
  have hz : 0 < s * √(t / n) := by positivity
  have hk := sinh_lt_mul_cosh hz
  set z := s * √(t / n) with hzd
  set q := √(t / n) with hq
  have ht' : t = n * (q * q) := by rw [hq, mul_self_sqrt (by positivity)]; field_simp
  have hp : cosh z ^ n = cosh z ^ (n - 1) * cosh z := by
    rw [← pow_succ, Nat.sub_add_cancel hn]
  have e : exp ((c - s ^ 2 / 2) * t) * (-s * t) * cosh z ^ n
      + exp ((c - s ^ 2 / 2) * t) * (n * cosh z ^ (n - 1) * (sinh z * q))
      = exp ((c - s ^ 2 / 2) * t) * cosh z ^ (n - 1) * n * q * (sinh z - z * cosh z) := by
    rw [hp]
    have : s * t = n * q * z := by rw [hzd]; linear_combination s * ht'
    linear_combination (-exp ((c - s ^ 2 / 2) * t) * cosh z ^ (n - 1) * cosh z) * this
  rw [e]
  exact mul_neg_of_pos_of_neg (by have := cosh_pos z; positivity) (by linarith)

open _root_.Verif.Tree in
/-- **C90, European JR trees.** No number is the vega of both the call and the put. -/
theorem C90_jr_vega_fails (o : Tree.Opt) (h : TreeValid o) (hS : o.S ≠ 0) (hty : o.type = "european") {C P : ℝ → ℝ}
    (hC : ∀ s > 0, Tree.price .jr { o with sigma := s } true = .ok (C s))
    (hP : ∀ s > 0, Tree.price .jr { o with sigma := s } false = .ok (P s)) :
    ¬ ∃ v, HasDerivAt C v o.sigma ∧ HasDerivAt P v o.sigma := by
  rintro ⟨v, h1, h2⟩
  obtain ⟨m, hm, hd⟩ := deriv_forward (c := o.b - o.r) h.t h.sigma h.n
  have hH : ∀ᶠ s in 𝓝 o.sigma, C s - P s
      = o.S * (exp ((o.b - o.r - s ^ 2 / 2) * o.t) * cosh (s * √(o.t / o.n)) ^ o.n) - o.K * exp (-o.r * o.t) := by
    filter_upwards [lt_mem_nhds h.sigma] with s hs
    obtain ⟨x, y, h1, h2, h3⟩ := C19_jr_forward { o with sigma := s } ⟨h.t, hs, h.n⟩ hty
    rw [hC s hs] at h1; rw [hP s hs] at h2
    injection h1 with h1; injection h2 with h2
    rw [h1, h2, h3, mul_pow, ← exp_nat_mul]
    have hn : (o.n : ℝ) ≠ 0 := by exact_mod_cast h.n.ne'
    congr 4
    field_simp
    ring
  have := slope_of_diff hH ((hd.const_mul o.S).sub_const _) h1 h2
  rw [sub_self] at this
  exact mul_ne_zero hS hm.ne this.symm

open _root_.Verif.Tree3d in
/-- **C90, two-asset trees.** European spread options: no number is the first-asset vega of both the call and the put. -/
theorem C90_spread_vega_fails (o : Tree3d.Opt) (hn : 0 < o.n) (ht : 0 < o.t) (hσ : 0 < o.sigma1) (hS : o.Q1 * o.S1 ≠ 0)
    (hE : o.otype ≠ "american") (hc : o.option = .spread) (k : ℝ) (hk : o.K = some k) {C P : ℝ → ℝ}
    (hC : ∀ s > 0, Tree3d.price { o with sigma1 := s } true = .ok (C s))
    (hP : ∀ s > 0, Tree3d.price { o with sigma1 := s } false = .ok (P s)) :
    ¬ ∃ v, HasDerivAt C v o.sigma1 ∧ HasDerivAt P v o.sigma1 := by
  rintro ⟨v, h1, h2⟩
  obtain ⟨m, hm, hd⟩ := deriv_forward (c := o.b1 - o.r) ht hσ hn
  obtain ⟨A, hA⟩ : ∃ A, A = o.Q2 * (o.S2 * exp ((o.b2 - o.sigma2 ^ 2 / 2 - o.r) * o.t)
          * (cosh (o.sigma2 * o.rho * √(o.t / o.n)) * cosh (o.sigma2 * √(1 - o.rho ^ 2) * √(o.t / o.n))) ^ o.n)
        + k * exp (-o.r * o.t) := ⟨_, rfl⟩
  have hH : ∀ᶠ s in 𝓝 o.sigma1, C s - P s
      = o.Q1 * o.S1 * (exp ((o.b1 - o.r - s ^ 2 / 2) * o.t) * cosh (s * √(o.t / o.n)) ^ o.n) - A := by
    filter_upwards [lt_mem_nhds hσ] with s hs
    obtain ⟨x, y, h1, h2, h3⟩ := C32_parity { o with sigma1 := s } hn hE hc k hk
    rw [hC s hs] at h1; rw [hP s hs] at h2
    injection h1 with h1; injection h2 with h2
    rw [h1, h2, h3, hA]
    simp only
    rw [show o.b1 - s ^ 2 / 2 - o.r = o.b1 - o.r - s ^ 2 / 2 by ring]
    ring
  have := slope_of_diff hH ((hd.const_mul (o.Q1 * o.S1)).sub_const _) h1 h2
  rw [sub_self] at this
  exact mul_ne_zero hS hm.ne this.symm

open _root_.Verif.Tree3d in
/-- **C90, two-asset trees.** European spread options: gamma in either asset is the same for call and put. -/
theorem C90_spread_gamma (o : Tree3d.Opt) (hn : 0 < o.n) (hE : o.otype ≠ "american") (hc : o.option = .spread) (k : ℝ)
    (hk : o.K = some k) {C P C' P' : ℝ → ℝ}
    (hC : ∀ s, Tree3d.price { o with S1 := s } true = .ok (C s)) (hP : ∀ s, Tree3d.price { o with S1 := s } false = .ok (P s))
    (hC' : ∀ s, Tree3d.price { o with S2 := s } true = .ok (C' s))
    (hP' : ∀ s, Tree3d.price { o with S2 := s } false = .ok (P' s)) :
    (∀ g, SecondDeriv C g o.S1 ↔ SecondDeriv P g o.S1) ∧ ∀ g, SecondDeriv C' g o.S2 ↔ SecondDeriv P' g o.S2 := by
  obtain ⟨A, hA⟩ : ∃ A, A = exp ((o.b1 - o.sigma1 ^ 2 / 2 - o.r) * o.t) * cosh (o.sigma1 * √(o.t / o.n)) ^ o.n := ⟨_, rfl⟩
  obtain ⟨B, hB⟩ : ∃ B, B = exp ((o.b2 - o.sigma2 ^ 2 / 2 - o.r) * o.t)
    * (cosh (o.sigma2 * o.rho * √(o.t / o.n)) * cosh (o.sigma2 * √(1 - o.rho ^ 2) * √(o.t / o.n))) ^ o.n := ⟨_, rfl⟩
  constructor
  · refine same_second (α := -(o.Q2 * o.S2 * B) - k * exp (-o.r * o.t)) (β := o.Q1 * A) (Eventually.of_forall fun s => ?_)
    obtain ⟨x, y, h1, h2, h3⟩ := C32_parity { o with S1 := s } hn hE hc k hk
    rw [hC s] at h1; rw [hP s] at h2
    injection h1 with h1; injection h2 with h2
    rw [h1, h2, h3, hA, hB]; ring
  · refine same_second (α := o.Q1 * o.S1 * A - k * exp (-o.r * o.t)) (β := -(o.Q2 * B)) (Eventually.of_forall fun s => ?_)
    obtain ⟨x, y, h1, h2, h3⟩ := C32_parity { o with S2 := s } hn hE hc k hk
    rw [hC' s] at h1; rw [hP' s] at h2
    injection h1 with h1; injection h2 with h2
    rw [h1, h2, h3, hA, hB]; ring

/-- A call on the better of two assets, the second one riskless. -/
noncomputable def maxExample (s : ℝ) : Tree3d.Opt :=
  ⟨100, 100, 1, 0, 0, 0, s, 0, 0, some 100, none, 1, 1, .maxOf, "european", 1⟩

open _root_.Verif.Tree3d in
theorem maxExample_prices {s : ℝ} (h0 : 0 < s) (h2 : s < 2) :
    Tree3d.price (maxExample s) true = .ok (50 * (exp (s - s ^ 2 / 2) - 1)) ∧
      Tree3d.price (maxExample s) false = .ok 0 := by
  have hf1 : PaysOff (maxExample s) true (fun s1 s2 => max 0 (max s1 s2 - 100)) := by
    intro s1 s2; simp [Tree3d.payoff, maxExample, num, Tree.zOf, ok_bind, pure, Except.pure]
  have hf2 : PaysOff (maxExample s) false (fun s1 s2 => max 0 (100 - max s1 s2)) := by
    intro s1 s2; simp [Tree3d.payoff, maxExample, num, Tree.zOf, ok_bind, pure, Except.pure]
  have hE : (maxExample s).otype ≠ "american" := by simp [maxExample]
  have e1 := european_average (maxExample s) (by simp [maxExample]) hE true _ hf1
  have e2 := european_average (maxExample s) (by simp [maxExample]) hE false _ hf2
  have u : 1 ≤ exp (s - s ^ 2 / 2) := one_le_exp (by nlinarith)
  have d : exp (-s - s ^ 2 / 2) ≤ 1 := exp_le_one_iff.2 (by nlinarith)
  have a11 : asset1 (maxExample s) 1 1 = 100 * exp (s - s ^ 2 / 2) := by
    simp [asset1, maxExample]; ring_nf
  have a10 : asset1 (maxExample s) 1 0 = 100 * exp (-s - s ^ 2 / 2) := by
    simp [asset1, maxExample]; ring_nf
  have a2 : ∀ j i, asset2 (maxExample s) 1 j i = 100 := fun j i => by simp [asset2, maxExample]
  have hn : (maxExample s).n = 1 := rfl
  have hr : (maxExample s).r = 0 := rfl
  constructor
  · rw [e1]
    congr 1
    simp only [TwoAsset.average, hn, hr, Finset.sum_range_succ, Finset.sum_range_zero, a10, a11, a2]
    rw [max_eq_left (by linarith : (100:ℝ) ≤ 100 * exp (s - s ^ 2 / 2)), max_eq_right (by linarith : 100 * exp (-s - s ^ 2 / 2) ≤ (100:ℝ)),
      max_eq_right (by linarith : (0:ℝ) ≤ 100 * exp (s - s ^ 2 / 2) - 100)]
    norm_num
    ring
  · rw [e2]
    congr 1
    simp only [TwoAsset.average, hn, hr, Finset.sum_range_succ, Finset.sum_range_zero, a10, a11, a2]
    rw [max_eq_left (by linarith : (100:ℝ) ≤ 100 * exp (s - s ^ 2 / 2)), max_eq_right (by linarith : 100 * exp (-s - s ^ 2 / 2) ≤ (100:ℝ)),
      max_eq_left (by linarith : 100 - 100 * exp (s - s ^ 2 / 2) ≤ (0:ℝ))]
    norm_num

/-- **C90, maximum of two assets.** Both derivatives exist and differ by far more than a lattice error: the put is
worthless for every volatility, the call has first-asset vega `40 e^{0.18}`. -/
theorem C90_max_vega_fails {C P : ℝ → ℝ} (hC : ∀ s > 0, Tree3d.price (maxExample s) true = .ok (C s))
    (hP : ∀ s > 0, Tree3d.price (maxExample s) false = .ok (P s)) :
    HasDerivAt C (40 * exp 0.18) 0.2 ∧ HasDerivAt P 0 0.2 := by
  have hev : ∀ᶠ s : ℝ in 𝓝 0.2, 0 < s ∧ s < 2 :=
    (lt_mem_nhds (by norm_num)).and (gt_mem_nhds (by norm_num))
  constructor
  · have h1 : HasDerivAt (fun s : ℝ => 50 * (exp (s - s ^ 2 / 2) - 1)) (40 * exp 0.18) 0.2 := by
      have := ((((hasDerivAt_id (0.2:ℝ)).fun_sub ((hasDerivAt_pow 2 (0.2:ℝ)).div_const 2)).exp).sub_const 1).const_mul 50
      refine this.congr_deriv ?_
      norm_num
      ring
    refine h1.congr_of_eventuallyEq ?_
    filter_upwards [hev] with s hs
    have := (maxExample_prices hs.1 hs.2).1
    rw [hC s hs.1] at this
    injection this
  · refine (hasDerivAt_const (0.2:ℝ) (0:ℝ)).congr_of_eventuallyEq ?_
    filter_upwards [hev] with s hs
    have := (maxExample_prices hs.1 hs.2).2
    rw [hP s hs.1] at this
    injection this

/-! ### American approximations -/

theorem beta_no_carry {r σ : ℝ} (hr : 0 < r) (hσ : 0 < σ) : BS93.beta 0 (-r) σ = 1 + 2 * r / σ ^ 2 := by
  have h1 : 0 < r / σ ^ 2 := by positivity
  rw [BS93.beta, mul_zero, zero_div, add_zero, sqrt_sq_eq_abs, abs_of_neg (by rw [neg_div]; linarith)]
  ring

/-- **C90, `BSAmericanApproxOption.vega`.** With `b = r > 0` and a spot below `K/(1+σ²/2r)` the put is exercised for all
nearby volatilities, so its vega is zero … -/
theorem C90_bs93_put_vega {S K t r σ : ℝ} (hS : 0 < S) (hr : 0 < r) (hσ : 0 < σ) (hrt : r * t < 2 * σ * √t)
    (hK : S * (1 + σ ^ 2 / (2 * r)) < K) {P : ℝ → ℝ}
    (hP : ∀ s > 0, ∃ I, BS93.put ⟨S, K, t, r, r, some s⟩ = .ok (P s, I)) : HasDerivAt P 0 σ := by
  refine (hasDerivAt_const σ (K - S)).congr_of_eventuallyEq ?_
  have c1 : ContinuousAt (fun s : ℝ => S * (1 + s ^ 2 / (2 * r))) σ := by fun_prop
  have c2 : ContinuousAt (fun s : ℝ => 2 * s * √t) σ := by fun_prop
  filter_upwards [lt_mem_nhds hσ, c1.eventually (gt_mem_nhds hK), c2.eventually (lt_mem_nhds hrt)] with s hs h1 h2
  have hr0 : r - r = 0 := sub_self r
  have hb := C59_put_boundary (b := r) hs hr h2.le
  have hu := (C40_trigger_partial (X := 1) (T := t) (r := r - r) (b := -r) one_pos hs (by linarith) (by linarith)).2
  obtain ⟨p, h3, h4, -⟩ := C59_put_trigger (K := K) (t := t) (b := r) (σ := s) hS hr (by linarith)
  obtain ⟨I, hI⟩ := hP s hs
  rw [hI] at h3
  injection h3 with h3
  have hp : P s = p := congrArg Prod.fst h3
  rw [hp]
  refine h4 ((le_div_iff₀ (by linarith)).2 ?_)
  rw [hr0, beta_no_carry hr hs, mul_one] at hu
  rw [hr0]
  have e : (1 + 2 * r / s ^ 2) / (1 + 2 * r / s ^ 2 - 1) = 1 + s ^ 2 / (2 * r) := by field_simp; ring
  rw [e] at hu
  nlinarith

/-- … while the vega of the call, the number `vega()` reports, is at least 9 in this case. -/
theorem C90_bs93_vega_fails : ∃ S K t r σ : ℝ, ∀ C P : ℝ → ℝ,
    (∀ s > 0, ∃ I, BS93.call ⟨S, K, t, r, r, some s⟩ = .ok (C s, I)) →
    (∀ s > 0, ∃ I, BS93.put ⟨S, K, t, r, r, some s⟩ = .ok (P s, I)) →
    HasDerivAt P 0 σ ∧ ∃ v, 9 < v ∧ HasDerivAt C v σ := by
  have hx : exp (-0.05 : ℝ) ≤ 0.96 := by
    have h1 : (1.05:ℝ) ≤ exp 0.05 := by have := add_one_le_exp (0.05:ℝ); norm_num at this ⊢; linarith
    rw [exp_neg, inv_le_comm₀ (exp_pos _) (by norm_num)]
    norm_num at h1 ⊢; linarith
  have hx' : (0.95:ℝ) ≤ exp (-0.05 : ℝ) := by have := add_one_le_exp (-0.05:ℝ); norm_num at this ⊢; linarith
  have hsq : √(1 / 4 : ℝ) = 1 / 2 := by rw [show (1 / 4 : ℝ) = (1 / 2) ^ 2 by norm_num]; exact sqrt_sq (by norm_num)
  refine ⟨100 * exp (-0.05), 100, 1 / 4, 0.5, 0.2, fun C P hC hP => ⟨C90_bs93_put_vega (by positivity) (by norm_num)
    (by norm_num) (by rw [hsq]; norm_num) (by nlinarith) hP, ?_⟩⟩
  have hv : Valid (100 * exp (-0.05)) 100 (1 / 4) 0.2 := ⟨by positivity, by norm_num, by norm_num, by norm_num⟩
  have hd1 : D1 (100 * exp (-0.05)) 100 (1 / 4) 0.5 0.2 = 0.8 := by
    unfold D1 GBS.d1Expr
    rw [mul_div_right_comm, div_self (by norm_num), one_mul, log_exp, hsq]
    norm_num
  obtain ⟨d, g, h1, h2, h3⟩ := C82_vega_partial hv 0.5 0.5 (by rw [hd1]; norm_num) (by rw [hd1, hsq]; norm_num) true
    (P := fun s => codeCall (100 * exp (-0.05)) 100 (1 / 4) 0.5 0.5 s) (fun s => by rw [price_code]; simp)
  refine ⟨d, ?_, ?_⟩
  · have hg : g = 100 * exp (-0.05) * exp ((0.5 - 0.5) * (1 / 4)) * φ 0.8 * √(1 / 4) := by
      have : Except.ok (100 * exp (-0.05) * exp ((0.5 - 0.5) * (1 / 4)) * NDF (GBS.d1Expr (100 * exp (-0.05)) 100 (1 / 4) 0.5 0.2)
        * √(1 / 4)) = (Except.ok g : Except PyErr ℝ) := h2
      injection this with this
      rw [← this, NDF_eq, show GBS.d1Expr (100 * exp (-0.05)) 100 (1 / 4) 0.5 0.2 = 0.8 from hd1]
    have hφ : 0.26 ≤ φ 0.8 := by
      have h1 : (0.68:ℝ) ≤ exp (-0.8 ^ 2 / 2) := by
        have := add_one_le_exp (-0.8 ^ 2 / 2 : ℝ); norm_num at this ⊢; linarith
      have h2 : √(2 * π) ≤ 2.6 := sqrt_le_iff.2 ⟨by norm_num, by have := pi_lt_d2; norm_num at this ⊢; linarith⟩
      have h3 : 0 < √(2 * π) := by positivity
      rw [φ, le_div_iff₀ h3]
      norm_num at h1 h2 ⊢
      linarith
    rw [hd1, hsq] at h3
    have he : exp (-0.5 * (1 / 4) : ℝ) ≤ 1 := exp_le_one_iff.2 (by norm_num)
    have hb : 2.6e-6 * (100 * exp (-0.05) * exp ((0.5 - 0.5) * (1 / 4)) * |0.8 - 0.2 * (1 / 2)|
        + 100 * exp (-0.5 * (1 / 4)) * |(0.8:ℝ)|) / 0.2 ≤ 1 := by
      rw [sub_self, zero_mul, exp_zero, abs_of_pos (by norm_num), abs_of_pos (by norm_num)]
      obtain ⟨x, hx0⟩ : ∃ x, exp (-0.05 : ℝ) = x := ⟨_, rfl⟩
      obtain ⟨y, hy0⟩ : ∃ y, exp (-0.5 * (1 / 4) : ℝ) = y := ⟨_, rfl⟩
      rw [hx0] at hx ⊢
      rw [hy0] at he ⊢
      norm_num at hx ⊢
      linarith
    have hg' : 12 ≤ g := by
      rw [hg, hsq, sub_self, zero_mul, exp_zero]
      nlinarith
    have := (abs_le.1 (h3.trans hb)).1
    linarith
  · refine h1.congr_of_eventuallyEq ?_
    filter_upwards [lt_mem_nhds (by norm_num : (0:ℝ) < 0.2)] with s hs
    obtain ⟨I, hI⟩ := hC s hs
    rw [C39_call_european _ (le_refl _)] at hI
    have hp := price_code (100 * exp (-0.05)) 100 (1 / 4) 0.5 0.5 s true
    have hp' : (GBS.new (100 * exp (-0.05)) 100 (1 / 4) 0.5 0.5 (some s)).call
      = .ok (codeCall (100 * exp (-0.05)) 100 (1 / 4) 0.5 0.5 s) := by
      rw [if_pos rfl, sub_zero] at hp; exact hp
    simp only [hp', ok_bind] at hI
    injection hI with hI
    exact (congrArg Prod.fst hI).symm

/-- Example for C90: central differences on the documented `SpreadApproxOption`. -/
theorem C90_example : ∃ a v1 v2, kirkCls.construct (kirkKw 122 120 3 (1 / 10) 0.1 0 0 0.2 0.25 0.5 1 1) = (a, none) ∧
    (kirkVega centralScheme.diff 0 [a]).1 = .ok [("sigma1", .num v1), ("sigma2", .num v2)] ∧
    schemeValue centralScheme kirkCls KirkClass.put (kirkKw 122 120 3 (1 / 10) 0.1 0 0 0.2 0.25 0.5 1 1) "sigma1" 1 0.2
      = .ok (.num v1) := by
  obtain ⟨a, ha, -⟩ := kirk_prices 122 120 3 (1 / 10) 0.1 0 0 0.2 0.25 0.5 1 1
  obtain ⟨v1, v2, -, -, -, -, -, -, h1, h2, -⟩ := C90_kirk 122 120 3 (1 / 10) 0.1 0 0 0.2 0.25 0.5 1 1 centralScheme
    (by positivity) (fun n p hp => by
      have h0 : 0 ≤ p.1 := by
        simp only [centralScheme] at hp
        split at hp <;> simp at hp
        · rcases hp with rfl | rfl <;> norm_num
        · rcases hp with rfl | rfl | rfl <;> norm_num
      have : 0 ≤ 1 * p.1 * exp ((0 - 0.1) * (1 / 10)) := by positivity
      have h2 : 0 < 3 * exp (-0.1 * (1 / 10)) := by positivity
      linarith) ha [a] 0 (by simp) rfl
  exact ⟨a, v1, v2, ha, h1, h2⟩

/-- The hypotheses of `C90_ms_vega_fails` hold for the documented `MiltersenSchwartzOption`. -/
theorem C90_ms_example : ∃ C P : ℝ → ℝ, 
    let kw := msKw (exp (-0.05 / 4)) 95 80 (1 / 4) (1 / 2) 0.266 0.249 0.0096 0.805 0.0805 0.1243 1.045 0.2
    (∀ s, msCls.freshPrice MSClass.call.run kw "sigmaS" (.num s) = .ok (.num (C s))) ∧
    (∀ s, msCls.freshPrice MSClass.put.run kw "sigmaS" (.num s) = .ok (.num (P s))) ∧
    ¬ ∃ v, HasDerivAt C v 0.266 ∧ HasDerivAt P v 0.266 := by
  have h : ∀ s : ℝ, _ := fun s => ms_fresh (exp (-0.05 / 4)) 95 80 (1 / 4) (1 / 2) s 0.249 0.0096 0.805 0.0805
      0.1243 1.045 0.2 (by norm_num) (by norm_num) (by norm_num) (by norm_num)
      (kw := msKw (exp (-0.05 / 4)) 95 80 (1 / 4) (1 / 2) 0.266 0.249 0.0096 0.805 0.0805 0.1243 1.045 0.2)
      (wrt := "sigmaS") (x := s) (by simp [msKw, Dict.insert])
  choose C P h1 h2 _ using h
  exact ⟨C, P, h1, h2, C90_ms_vega_fails _ _ _ _ _ _ _ _ _ _ _ _ _ (exp_pos _).ne' (by norm_num) (by norm_num) (by norm_num)
    (by norm_num) (by norm_num) (by norm_num) (by norm_num) (by norm_num) (Eventually.of_forall h1) (Eventually.of_forall h2)⟩

end Verif.Props
