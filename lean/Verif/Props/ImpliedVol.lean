import Verif.Model.Vol
import Verif.Props.ObjGreeks
import Verif.Props.GBSAccuracy
import Verif.Props.GBSAlgebra

/-!
# Implied volatility (C13, C15) and finite-difference greeks of calls and puts (C56)
-/
set_option linter.unusedSimpArgs false
namespace Verif.Props
open Verif Verif.Spec Real Filter Topology Set

/-! ### C15 -/

theorem maxArray_spec (args : List Val) (m : List ℝ) :
    let r := args.foldl (fun m a => match a with
      | .arr xs => if m.length < xs.length then xs else m
      | _ => m) m
    (r.length = m.length ∨ ∃ xs, Val.arr xs ∈ args ∧ r.length = xs.length) ∧ m.length ≤ r.length ∧
      ∀ xs, Val.arr xs ∈ args → xs.length ≤ r.length := by
  induction args generalizing m with
  | nil => simp
  | cons v args ih =>
    simp only [List.foldl_cons]
    cases v with
    | arr xs =>
      simp only
      by_cases h : m.length < xs.length
      · rw [if_pos h]
        obtain ⟨h1, h2, h3⟩ := ih xs
        refine ⟨?_, by omega, ?_⟩
        · rcases h1 with h1 | ⟨ys, hy, h1⟩
          · exact Or.inr ⟨xs, by simp, h1⟩
          · exact Or.inr ⟨ys, by simp [hy], h1⟩
        · intro ys hy
          simp only [List.mem_cons, Val.arr.injEq] at hy
          rcases hy with rfl | hy
          · exact h2
          · exact h3 ys hy
      · rw [if_neg h]
        obtain ⟨h1, h2, h3⟩ := ih m
        refine ⟨?_, h2, ?_⟩
        · rcases h1 with h1 | ⟨ys, hy, h1⟩
          · exact Or.inl h1
          · exact Or.inr ⟨ys, by simp [hy], h1⟩
        · intro ys hy
          simp only [List.mem_cons, Val.arr.injEq] at hy
          rcases hy with rfl | hy
          · omega
          · exact h3 ys hy
    | none =>
      obtain ⟨h1, h2, h3⟩ := ih m
      refine ⟨?_, h2, fun ys hy => h3 ys (by simpa using hy)⟩
      exact h1.imp id (fun ⟨ys, hy, h1⟩ => ⟨ys, by simp [hy], h1⟩)
    | num x =>
      obtain ⟨h1, h2, h3⟩ := ih m
      refine ⟨?_, h2, fun ys hy => h3 ys (by simpa using hy)⟩
      exact h1.imp id (fun ⟨ys, hy, h1⟩ => ⟨ys, by simp [hy], h1⟩)
    | str s =>
      obtain ⟨h1, h2, h3⟩ := ih m
      refine ⟨?_, h2, fun ys hy => h3 ys (by simpa using hy)⟩
      exact h1.imp id (fun ⟨ys, hy, h1⟩ => ⟨ys, by simp [hy], h1⟩)

theorem heap_bind_ok {α β : Type} {m : HeapM α} {k : α → HeapM β} {h h' : Heap} {v : α}
    (hm : m h = (.ok v, h')) : (m >>= k) h = k v h' := by
  change (ExceptT.bind m k) h = _
  unfold ExceptT.bind ExceptT.mk
  change StateT.bind m (ExceptT.bindCont k) h = _
  unfold StateT.bind
  rw [hm]
  rfl

/-- **C15.** On any reachable option, `volatility(price, call)` runs the vector solver exactly when the
price or some parameter is an array with more than one element, and then from a vector of ones whose
length `L` is the largest array size among them; otherwise it runs the scalar solver on `[-10, 10]`. -/
theorem C15_solver_choice {c : Cls} (hc : c ∈ classes) (scalar : ℝ → ℝ → Rule) (vec : List ℝ → Rule)
    (cl pt : Attrs → Except PyErr Val) {kw : Dict} {a₀ : Attrs}
    (h₀ : c.construct kw = (a₀, none)) (ops : List (String × Val)) (h : Heap) (i : ℕ)
    (hat : h.getD i Attrs.empty = c.runCatch ops a₀) (price : Val) (call : Bool) :
    ∃ d, c.getParams (c.runCatch ops a₀) = .ok d ∧
      ((∃ xs, Val.arr xs ∈ price :: d.map (·.2) ∧ 1 < xs.length) →
        ∃ L, (∃ xs, Val.arr xs ∈ price :: d.map (·.2) ∧ xs.length = L) ∧
          (∀ xs, Val.arr xs ∈ price :: d.map (·.2) → xs.length ≤ L) ∧
          volatility scalar vec c cl pt i price call h
            = (vec (List.replicate L 1)).run (volFunc c cl pt i call price) h) ∧
      ((¬ ∃ xs, Val.arr xs ∈ price :: d.map (·.2) ∧ 1 < xs.length) →
          volatility scalar vec c cl pt i price call h
            = (scalar (-10) 10).run (volFunc c cl pt i call price) h) := by
  have hl := lawful_of_mem hc
  obtain ⟨p, _, hs⟩ := construct_state hl h₀
  obtain ⟨d, hd, _⟩ := getParams_dict hl (runCatch_readable hl ops _ (State.readable hl hs))
  have hcheck : checkArray (price :: d.map (·.2)) = true ↔
      ∃ xs, Val.arr xs ∈ price :: d.map (·.2) ∧ 1 < xs.length := by
    unfold checkArray
    rw [List.any_eq_true]
    constructor
    · rintro ⟨v, hv, hb⟩
      cases v with
      | arr xs => exact ⟨xs, hv, by simpa [Val.isBigArray] using hb⟩
      | _ => simp [Val.isBigArray] at hb
    · rintro ⟨xs, hv, hb⟩
      exact ⟨_, hv, by simpa [Val.isBigArray] using hb⟩
  have hrun : volatility scalar vec c cl pt i price call h
      = (if checkArray (price :: d.map (·.2)) then
          (vec (List.replicate (maxArray (price :: d.map (·.2))).length 1)).run
            (volFunc c cl pt i call price)
        else (scalar (-10) 10).run (volFunc c cl pt i call price)) h := by
    have e1 : (HeapM.load i) h = (.ok (c.runCatch ops a₀), h) := by rw [← hat]; rfl
    have e2 : (HeapM.lift (c.getParams (c.runCatch ops a₀))) h = (.ok d, h) := by rw [hd]; rfl
    unfold volatility
    rw [heap_bind_ok e1, heap_bind_ok e2]
  refine ⟨d, hd, fun hex => ?_, fun hex => ?_⟩
  · obtain ⟨m1, m2, m3⟩ := maxArray_spec (price :: d.map (·.2)) [0]
    refine ⟨_, ?_, m3, by rw [hrun, if_pos (hcheck.mpr hex)]; rfl⟩
    rcases m1 with m1 | ⟨xs, hx, m1⟩
    · obtain ⟨xs, hx, hgt⟩ := hex
      have := m3 xs hx
      simp only [List.length_singleton] at m1
      omega
    · exact ⟨xs, hx, m1.symm⟩
  · rw [hrun, if_neg (fun hh => hex (hcheck.mp hh))]

/-! ### C13 -/

/-- What is assumed of a root finder started on the bracket: whenever it returns a value for a target
function, that value is a number at which the function is at most `tol` in absolute value. -/
def FindsRoot (tol : ℝ) (rule : Rule) : Prop :=
  ∀ g v, rule.runPure g = .ok v → ∃ x y, v = .num x ∧ g v = .ok (.num y) ∧ |y| ≤ tol

theorem gbs_freshSigma (S K t r b : ℝ) (σ₀ : Val) (x : ℝ) (hK : K ≠ 0) (call : Bool) :
    gbsCls.freshPrice (if call then GBSClass.call.run else GBSClass.put.run) (gbsKw S K t r b σ₀)
      "sigma" (.num x) = ((GBS.new S K t r b (some x)).price call).map .num := by
  obtain ⟨a, ha, hg⟩ := isGBS_construct S K t r b x hK
  unfold Cls.freshPrice
  rw [show gbsCls.drop.foldl Dict.del (Dict.insert (gbsKw S K t r b σ₀) "sigma" (.num x))
      = gbsKw S K t r b (.num x) by simp [gbsCls, gbsKw, Dict.insert], ha]
  cases call
  · exact (isGBS_methods hg).2.1
  · exact (isGBS_methods hg).1

theorem volFunc_harmless {c : Cls} (hc : c ∈ classes) {cl pt : Attrs → Except PyErr Val}
    (hcl : c.Respects cl) (hpt : c.Respects pt) (call : Bool) {i : ℕ} {h : Heap} {a : Attrs}
    (ha : h.getD i Attrs.empty = a) {d : Dict} (hd : c.getParams a = .ok d) (price x : Val) :
    Harmless (volFunc c cl pt i call price x) h
      (c.freshPrice (if call then cl else pt) d "sigma" x >>= Val.map₂ (· - ·) price) := by
  have h1 := fdmFunc_harmless (lawful_of_mem hc) hcl hpt "sigma" call ha hd x
  have h2 : volFunc c cl pt i call price x = (fdmFunc c cl pt "sigma" call i x >>= fun v =>
      HeapM.lift (Val.map₂ (· - ·) price v)) := by
    unfold volFunc fdmFunc
    simp only [bind_assoc]
    cases call <;> rfl
  rw [h2]
  exact Harmless.bind h1 (fun v ex _ => Harmless.lift _ _)

theorem gbs_params_ofV {S K t r b σ₀ : Val} {a : Attrs}
    (h : gbsCls.construct (gbsKwV S K t r b σ₀) = (a, none)) :
    gbsCls.getParams a = .ok (gbsKwV S K t r b σ₀) := by
  have hl : gbsCls.Lawful := lawful_of_mem (by simp [classes])
  obtain ⟨p, hb, hs⟩ := construct_state hl h
  have h1 := (State.getParams hl hs)
  rw [h1.1]
  have hp : p "S" = some S ∧ p "K" = some K ∧ p "t" = some t ∧
      p "r" = some r ∧ p "b" = some b ∧ p "sigma" = some σ₀ := by
    obtain ⟨q, hq, h⟩ := bind_gbs S K t r b σ₀
    rw [hb] at hq
    cases hq
    exact h
  have hf := h1.2
  simp only [gbsCls, optionFields, List.mem_cons, List.not_mem_nil, or_false, forall_eq_or_imp,
    forall_eq] at hf
  simp only [not_false_eq_true, forall_const] at hf
  obtain ⟨f1, f2, f3, f4, f5, f6⟩ := hf
  simp [gbsCls, optionFields, gbsKwV, f1, f2, f3, f4, f5, f6, hp]

theorem gbs_params_of {S K t r b : ℝ} {σ₀ : Val} {a : Attrs}
    (h : gbsCls.construct (gbsKw S K t r b σ₀) = (a, none)) :
    gbsCls.getParams a = .ok (gbsKw S K t r b σ₀) := gbs_params_ofV h

/-- **C13 (repricing).** For a `GBSOption` with numeric parameters (volatility unset or set), at any
address of any heap: whatever number `volatility(P, call)` returns, if the scalar solver only returns
points where its target is at most `tol`, then a fresh option with that volatility has a price within
`tol` of `P`; no existing object is changed. If moreover the volatility is positive and the option
valid, the exact Black–Scholes value is within `tol` plus the accuracy of the normal approximation. -/
theorem C13_reprices (S K t r b P tol : ℝ) (hK : K ≠ 0) (σ₀ : Val) (hσ₀ : σ₀ = .none ∨ ∃ s, σ₀ = .num s)
    {a : Attrs} (ha : gbsCls.construct (gbsKw S K t r b σ₀) = (a, none)) (scalar : ℝ → ℝ → Rule)
    (vec : List ℝ → Rule) (hfind : FindsRoot tol (scalar (-10) 10)) (h : Heap) (i : ℕ)
    (hi : i < h.length) (hat : h.getD i Attrs.empty = a) (call : Bool) {v : Val} {h' : Heap}
    (hres : volatility scalar vec gbsCls GBSClass.call.run GBSClass.put.run i (.num P) call h
      = (.ok v, h')) :
    ∃ σ u copies, v = .num σ ∧ h' = h ++ copies ∧
      (GBS.new S K t r b (some σ)).price call = .ok u ∧ |P - u| ≤ tol ∧
      (0 < S → 0 < K → 0 < t → 0 < σ → |P - bsPrice call S K t r b σ|
        ≤ tol + 7.5e-8 * (S * exp ((b - r) * t) + K * exp (-r * t))) := by
  have hc : gbsCls ∈ classes := by simp [classes]
  have hd := gbs_params_of ha
  obtain ⟨d, hd', -, hch⟩ := C15_solver_choice hc scalar vec GBSClass.call.run GBSClass.put.run ha [] h
    i (by simpa [Cls.runCatch] using hat) (.num P) call
  rw [show gbsCls.runCatch [] a = a from rfl, hd] at hd'
  cases hd'
  rw [hch (by rcases hσ₀ with rfl | ⟨s, rfl⟩ <;> simp [gbsKw])] at hres
  have hR : ∀ m ∈ GBSClass.methods, gbsCls.Respects m.run := fun m hm =>
    (C10_prices_respect hc).1 m (by simpa [methodsOf, gbsCls] using hm)
  have hcl := hR GBSClass.call (by simp [GBSClass.methods])
  have hpt := hR GBSClass.put (by simp [GBSClass.methods])
  obtain ⟨copies, hrun⟩ := rule_harmless (a := a)
    (fun h' x _ ha' => volFunc_harmless hc hcl hpt call ha' hd (.num P) x) (scalar (-10) 10) h hi hat
  have hres := Prod.mk.inj (hrun.symm.trans hres)
  obtain ⟨σ, y, rfl, hy, hle⟩ := hfind _ _ hres.1
  rw [gbs_freshSigma S K t r b σ₀ σ hK call] at hy
  rcases hp : (GBS.new S K t r b (some σ)).price call with e | u
  · rw [hp] at hy; cases hy
  · rw [hp] at hy
    simp only [Except.map, ok_bind, Val.map₂, Except.ok.injEq, Val.num.injEq] at hy
    subst hy
    refine ⟨σ, u, copies, rfl, hres.2.symm, hp, hle, fun h1 h2 h3 h4 => ?_⟩
    obtain ⟨x, hx, hxe⟩ := C02_price_accuracy ⟨h1, h2, h3, h4⟩ r b call
    rw [hp] at hx
    cases hx
    have e : P - bsPrice call S K t r b σ = (P - u) + (u - bsPrice call S K t r b σ) := by ring
    rw [e]
    exact (abs_add_le _ _).trans (add_le_add hle hxe)

/-- **C13 (negative volatilities).** For all parameters: `call(-σ) = -put(σ)`. -/
theorem C13_negative_sigma (S K t r b σ : ℝ) :
    ∃ c p, (GBS.new S K t r b (some (-σ))).call = .ok c ∧ (GBS.new S K t r b (some σ)).put = .ok p ∧
      c = -p := by
  refine ⟨_, _, rfl, rfl, ?_⟩
  have h1 : GBS.d1Expr S K t b (-σ) = -GBS.d1Expr S K t b σ := by
    unfold GBS.d1Expr
    rw [neg_mul_neg, neg_mul, div_neg]
  have h2 : GBS.d2Expr (GBS.d1Expr S K t b (-σ)) (-σ) t = -GBS.d2Expr (GBS.d1Expr S K t b σ) σ t := by
    rw [h1]; unfold GBS.d2Expr; ring
  simp only [GBS.new]
  rw [h2, h1]
  ring

/-- **C13 (bracket).** The target of the solver at the two ends of the bracket: `P + put(10)` at `-10`
and `P - call(10)` at `10`; so the bracket has a sign change for every price strictly between
`-put(10)` and `call(10)`. -/
theorem C13_bracket (S K t r b P : ℝ) :
    ∃ lo hi p10 c10, (GBS.new S K t r b (some (-10))).call = .ok lo ∧
      (GBS.new S K t r b (some 10)).call = .ok hi ∧
      (GBS.new S K t r b (some 10)).put = .ok p10 ∧ (GBS.new S K t r b (some 10)).call = .ok c10 ∧
      (-p10 < P → P < c10 → 0 < P - lo ∧ P - hi < 0) := by
  obtain ⟨c, p, h1, h2, h3⟩ := C13_negative_sigma S K t r b 10
  obtain ⟨u, hu⟩ := gbs_call_ok S K t r b 10
  exact ⟨c, u, p, u, h1, hu, h2, hu, fun h4 h5 => ⟨by rw [h3]; linarith, by linarith⟩⟩

section exact
variable {S K t : ℝ} (hS : 0 < S) (hK : 0 < K) (ht : 0 < t) (r b : ℝ)
include hS hK ht

theorem bsCall_strictMono : StrictMonoOn (fun σ => bsCall S K t r b σ) (Ioi 0) := by
  refine strictMonoOn_of_deriv_pos (convex_Ioi 0) ?_ ?_
  · intro x hx
    exact (deriv_call_σ hS hK ht hx).continuousAt.continuousWithinAt
  · intro x hx
    rw [interior_Ioi] at hx
    rw [(deriv_call_σ (r := r) (b := b) hS hK ht hx).deriv]
    have := φ_pos (D1 S K t b x)
    have := sqrt_pos.2 ht
    positivity

omit hS hK in
theorem D1_split {σ : ℝ} (hσ : 0 < σ) :
    D1 S K t b σ = (log (S / K) + b * t) / √t * σ⁻¹ + √t / 2 * σ := by
  have hs : √t ≠ 0 := (sqrt_pos.2 ht).ne'
  have htt : √t ^ 2 = t := sq_sqrt ht.le
  unfold D1 GBS.d1Expr
  field_simp
  rw [htt]
  ring

theorem tendsto_call_top : Tendsto (fun σ => bsCall S K t r b σ) atTop (𝓝 (S * exp ((b - r) * t))) := by
  have hs := sqrt_pos.2 ht
  have hinv : Tendsto (fun σ : ℝ => σ⁻¹) atTop (𝓝 0) := tendsto_inv_atTop_zero
  have h0 : Tendsto (fun σ : ℝ => (log (S / K) + b * t) / √t * σ⁻¹) atTop (𝓝 0) := by
    simpa using hinv.const_mul ((log (S / K) + b * t) / √t)
  have h1 : Tendsto (fun σ : ℝ => (log (S / K) + b * t) / √t * σ⁻¹ + √t / 2 * σ) atTop atTop :=
    h0.add_atTop (tendsto_id.const_mul_atTop (by positivity))
  have h2 : Tendsto (fun σ : ℝ => (log (S / K) + b * t) / √t * σ⁻¹ + -(√t / 2) * σ) atTop atBot :=
    h0.add_atBot (tendsto_id.const_mul_atTop_of_neg (by linarith))
  have h3 := ((tendsto_Φ_atTop.comp h1).const_mul (S * exp ((b - r) * t))).sub
    ((tendsto_Φ_atBot.comp h2).const_mul (K * exp (-r * t)))
  rw [mul_one, mul_zero, sub_zero] at h3
  refine h3.congr' ?_
  filter_upwards [eventually_gt_atTop 0] with σ hσ
  rw [bsCall_eq hS hK ht hσ, D1_split ht b hσ]
  simp only [Function.comp]
  congr 3
  ring

theorem tendsto_call_zero : Tendsto (fun σ => bsCall S K t r b σ) (𝓝[>] 0)
    (𝓝 (max (S * exp ((b - r) * t) - K * exp (-r * t)) 0)) := by
  have hs := sqrt_pos.2 ht
  have hid : Tendsto (fun σ : ℝ => σ) (𝓝[>] 0) (𝓝 0) := nhdsWithin_le_nhds
  have hlin : ∀ k : ℝ, Tendsto (fun σ : ℝ => k * σ) (𝓝[>] 0) (𝓝 0) := fun k => by
    simpa using hid.const_mul k
  have heq : ∀ σ ∈ Ioi (0:ℝ), S * exp ((b - r) * t) * Φ ((log (S / K) + b * t) / √t * σ⁻¹ + √t / 2 * σ)
      - K * exp (-r * t) * Φ ((log (S / K) + b * t) / √t * σ⁻¹ + -(√t / 2) * σ)
      = bsCall S K t r b σ := by
    intro σ hσ
    rw [bsCall_eq hS hK ht hσ, D1_split ht b hσ]
    congr 3
    ring
  have hm : S * exp ((b - r) * t) - K * exp (-r * t)
      = K * exp (-r * t) * (exp (log (S / K) + b * t) - 1) := by
    rw [exp_add, exp_log (by positivity), show (b - r) * t = b * t + -r * t by ring, exp_add]
    field_simp
  have hK' : 0 < K * exp (-r * t) := by positivity
  suffices hlim : Tendsto (fun σ => S * exp ((b - r) * t) * Φ ((log (S / K) + b * t) / √t * σ⁻¹ + √t / 2 * σ)
      - K * exp (-r * t) * Φ ((log (S / K) + b * t) / √t * σ⁻¹ + -(√t / 2) * σ)) (𝓝[>] 0)
      (𝓝 (max (S * exp ((b - r) * t) - K * exp (-r * t)) 0)) from
    hlim.congr' (eventually_of_mem self_mem_nhdsWithin heq)
  rcases lt_trichotomy (log (S / K) + b * t) 0 with h | h | h
  · have hb : Tendsto (fun σ : ℝ => (log (S / K) + b * t) / √t * σ⁻¹) (𝓝[>] 0) atBot :=
      tendsto_inv_nhdsGT_zero.const_mul_atTop_of_neg (div_neg_of_neg_of_pos h hs)
    have h1 := ((tendsto_Φ_atBot.comp (hb.atBot_add (hlin (√t / 2)))).const_mul
      (S * exp ((b - r) * t))).sub
      ((tendsto_Φ_atBot.comp (hb.atBot_add (hlin (-(√t / 2))))).const_mul (K * exp (-r * t)))
    rw [mul_zero, mul_zero, sub_zero] at h1
    have : max (S * exp ((b - r) * t) - K * exp (-r * t)) 0 = 0 := by
      rw [max_eq_right]
      rw [hm]
      have := exp_lt_one_iff.2 h
      nlinarith
    rw [this]
    exact h1
  · have hΦ : Tendsto Φ (𝓝 0) (𝓝 (Φ 0)) := (hasDerivAt_Φ 0).continuousAt
    have h1 := ((hΦ.comp (hlin (√t / 2))).const_mul (S * exp ((b - r) * t))).sub
      ((hΦ.comp (hlin (-(√t / 2)))).const_mul (K * exp (-r * t)))
    have e0 : S * exp ((b - r) * t) - K * exp (-r * t) = 0 := by rw [hm, h]; simp
    have : max (S * exp ((b - r) * t) - K * exp (-r * t)) 0
        = S * exp ((b - r) * t) * Φ 0 - K * exp (-r * t) * Φ 0 := by
      rw [← sub_mul, e0]; simp
    rw [this]
    simpa only [h, zero_div, zero_mul, zero_add, Function.comp_def] using h1
  · have hb : Tendsto (fun σ : ℝ => (log (S / K) + b * t) / √t * σ⁻¹) (𝓝[>] 0) atTop :=
      tendsto_inv_nhdsGT_zero.const_mul_atTop (div_pos h hs)
    have h1 := ((tendsto_Φ_atTop.comp (hb.atTop_add (hlin (√t / 2)))).const_mul
      (S * exp ((b - r) * t))).sub
      ((tendsto_Φ_atTop.comp (hb.atTop_add (hlin (-(√t / 2))))).const_mul (K * exp (-r * t)))
    rw [mul_one, mul_one] at h1
    have : max (S * exp ((b - r) * t) - K * exp (-r * t)) 0
        = S * exp ((b - r) * t) - K * exp (-r * t) := by
      rw [max_eq_left]
      rw [hm]
      have := one_lt_exp_iff.2 h
      nlinarith
    rw [this]
    exact h1

/-- **C13 (existence and uniqueness, exact law).** For a valid option, a number `P` is the exact call
value at some positive volatility exactly when it lies strictly between the discounted intrinsic value
and the discounted forward, and then that volatility is unique. -/
theorem C13_unique_call (P : ℝ) :
    (max (S * exp ((b - r) * t) - K * exp (-r * t)) 0 < P ∧ P < S * exp ((b - r) * t) →
      ∃! σ, 0 < σ ∧ bsCall S K t r b σ = P) ∧
    (∀ σ, 0 < σ → bsCall S K t r b σ = P →
      max (S * exp ((b - r) * t) - K * exp (-r * t)) 0 < P ∧ P < S * exp ((b - r) * t)) := by
  have hmono := bsCall_strictMono hS hK ht r b
  have hcont : ContinuousOn (fun σ => bsCall S K t r b σ) (Ioi 0) := fun x hx =>
    (deriv_call_σ hS hK ht hx).continuousAt.continuousWithinAt
  refine ⟨fun hP => ?_, fun σ hσ hv => ?_⟩
  · have := isPreconnected_Ioi.intermediate_value_Ioo (l₁ := 𝓝[>] (0:ℝ)) (l₂ := atTop)
      (le_principal_iff.2 self_mem_nhdsWithin) (le_principal_iff.2 (Ioi_mem_atTop 0)) hcont
      (tendsto_call_zero hS hK ht r b) (tendsto_call_top hS hK ht r b) hP
    obtain ⟨σ, hσ, hv⟩ := this
    exact ⟨σ, ⟨hσ, hv⟩, fun σ' h' => hmono.injOn h'.1 hσ (h'.2.trans hv.symm)⟩
  · constructor
    · have h1 : max (S * exp ((b - r) * t) - K * exp (-r * t)) 0 ≤ bsCall S K t r b (σ / 2) := by
        refine le_of_tendsto (tendsto_call_zero hS hK ht r b) ?_
        filter_upwards [Ioo_mem_nhdsGT (show (0:ℝ) < σ / 2 by linarith)] with x hx
        exact (hmono hx.1 (show (0:ℝ) < σ / 2 by linarith) hx.2).le
      rw [← hv]
      exact h1.trans_lt (hmono (show (0:ℝ) < σ / 2 by linarith) hσ (by linarith))
    · have h1 : bsCall S K t r b (σ + 1) ≤ S * exp ((b - r) * t) := by
        refine ge_of_tendsto (tendsto_call_top hS hK ht r b) ?_
        filter_upwards [eventually_gt_atTop (σ + 1)] with x hx
        exact (hmono (show (0:ℝ) < σ + 1 by linarith) (show (0:ℝ) < x by linarith) hx).le
      rw [← hv]
      exact (hmono hσ (show (0:ℝ) < σ + 1 by linarith) (by linarith)).trans_le h1

/-- **C13 (puts).** The same for puts, between the put intrinsic value and the discounted strike. -/
theorem C13_unique_put (P : ℝ) :
    (max (K * exp (-r * t) - S * exp ((b - r) * t)) 0 < P ∧ P < K * exp (-r * t) →
      ∃! σ, 0 < σ ∧ bsPut S K t r b σ = P) ∧
    (∀ σ, 0 < σ → bsPut S K t r b σ = P →
      max (K * exp (-r * t) - S * exp ((b - r) * t)) 0 < P ∧ P < K * exp (-r * t)) := by
  obtain ⟨h1, h2⟩ := C13_unique_call hS hK ht r b (P + (S * exp ((b - r) * t) - K * exp (-r * t)))
  have e : ∀ σ, bsPut S K t r b σ = P ↔
      bsCall S K t r b σ = P + (S * exp ((b - r) * t) - K * exp (-r * t)) := fun σ => by
    rw [bsPut_eq_call ht.le]
    constructor <;> intro h <;> linarith
  simp only [e]
  refine ⟨fun hP => h1 ⟨?_, by linarith [hP.2]⟩, fun σ hσ hv => ?_⟩
  · have := hP.1
    rw [max_lt_iff] at this ⊢
    constructor <;> linarith
  · have := h2 σ hσ hv
    rw [max_lt_iff] at this ⊢
    refine ⟨⟨?_, ?_⟩, ?_⟩ <;> linarith [this.1.1, this.1.2, this.2]

/-- **C13 (in the bracket).** The unique exact volatility lies below the upper end 10 of the bracket
exactly when the price is below the value at volatility 10. -/
theorem C13_in_bracket {P σ : ℝ} (hσ : 0 < σ) (hv : bsCall S K t r b σ = P) :
    σ < 10 ↔ P < bsCall S K t r b 10 := by
  rw [← hv]
  exact ((bsCall_strictMono hS hK ht r b).lt_iff_lt hσ (by norm_num : (0:ℝ) < 10)).symm

/-- **C13 (attainable prices, code).** For every exactly attainable call price there is a positive
volatility at which the coded price is within the accuracy of the normal approximation. -/
theorem C13_attainable {P : ℝ}
    (hP : max (S * exp ((b - r) * t) - K * exp (-r * t)) 0 < P ∧ P < S * exp ((b - r) * t)) :
    ∃ σ u, 0 < σ ∧ (P < bsCall S K t r b 10 → σ < 10) ∧ (GBS.new S K t r b (some σ)).call = .ok u ∧
      |P - u| ≤ 7.5e-8 * (S * exp ((b - r) * t) + K * exp (-r * t)) := by
  obtain ⟨σ, ⟨hσ, hv⟩, -⟩ := (C13_unique_call hS hK ht r b P).1 hP
  obtain ⟨u, hu, he⟩ := C02_price_accuracy ⟨hS, hK, ht, hσ⟩ r b true
  refine ⟨σ, u, hσ, (C13_in_bracket hS hK ht r b hσ hv).2, hu, ?_⟩
  rw [abs_sub_comm, ← hv]
  exact he

end exact

/-- Example for C13: an at-the-money one-year call with zero rates; price 10 is attainable, by exactly
one volatility. -/
theorem C13_example : ∃! σ, 0 < σ ∧ bsCall 100 100 1 0 0 σ = 10 :=
  (C13_unique_call (by norm_num) (by norm_num) (by norm_num) 0 0 10).1 (by norm_num)

/-- A solver that tries one point. -/
noncomputable def tryPoint (tol x : ℝ) : Rule := .ask (.num x) fun y => match y with
  | .num v => if |v| ≤ tol then .done (.num x) else .fail .valueError
  | _ => .fail .valueError

/-- Example for `C13_reprices`: solvers satisfying the assumption exist, and one returns on a concrete
unpriced option when it hits the right volatility. -/
theorem C13_solver_example :
    (∀ tol x, FindsRoot tol (tryPoint tol x)) ∧
    ∃ a P h', gbsCls.construct (gbsKw 100 95 1 0.01 0.02 .none) = (a, none) ∧
      volatility (fun _ _ => tryPoint 0 0.2) (fun _ => .fail .valueError) gbsCls GBSClass.call.run
        GBSClass.put.run 0 (.num P) true [a] = (.ok (.num 0.2), h') := by
  refine ⟨?_, ?_⟩
  · intro tol x g v hv
    unfold tryPoint Rule.runPure at hv
    rcases hg : g (.num x) with e | y
    · rw [hg] at hv; cases hv
    · rw [hg] at hv
      cases y with
      | num w =>
        simp only at hv
        split at hv
        · rename_i hle
          cases hv
          exact ⟨x, w, rfl, hg, hle⟩
        · cases hv
      | _ => cases hv
  · obtain ⟨a, ha⟩ : ∃ a, gbsCls.construct (gbsKw 100 95 1 0.01 0.02 .none) = (a, none) := by
      simp [Cls.construct, Cls.init, gbsCls, gbsKw, bindArgs, req, dflt, optionInit, assignParams,
        GBSClass.initD, exec, Expr.eval, isNoneArg, Attrs.set, List.lookup]
    obtain ⟨u, hu⟩ := gbs_call_ok 100 95 1 0.01 0.02 0.2
    have hc : gbsCls ∈ classes := by simp [classes]
    have hd := gbs_params_of ha
    obtain ⟨d, hd', -, hch⟩ := C15_solver_choice hc (fun _ _ => tryPoint 0 0.2)
      (fun _ => .fail .valueError) GBSClass.call.run GBSClass.put.run ha [] [a]
      0 rfl (.num u) true
    rw [show gbsCls.runCatch [] a = a from rfl, hd] at hd'
    cases hd'
    have hR : ∀ m ∈ GBSClass.methods, gbsCls.Respects m.run := fun m hm =>
      (C10_prices_respect hc).1 m (by simpa [methodsOf, gbsCls] using hm)
    have hcl := hR GBSClass.call (by simp [GBSClass.methods])
    have hpt := hR GBSClass.put (by simp [GBSClass.methods])
    obtain ⟨copies, hrun⟩ := rule_harmless (a := a) (i := 0)
      (fun h' x _ ha' => volFunc_harmless hc hcl hpt true ha' hd (.num u) x) (tryPoint 0 0.2) [a]
      (by simp) rfl
    refine ⟨a, u, _, ha, (hch (by simp [gbsKw])).trans (hrun.trans (congrArg (·, _) ?_))⟩
    have hf := gbs_freshSigma 100 95 1 0.01 0.02 .none 0.2 (by norm_num) true
    simp only [if_true] at hf
    have hu' : (GBS.new 100 95 1 0.01 0.02 (some 0.2)).price true = .ok u := hu
    simp [tryPoint, Rule.runPure, hf, hu', Except.map, ok_bind, Val.map₂]

/-- Example for `C15_solver_choice`: with an array of spots the vector solver is used, started from a
vector of ones of the length of the longest array. -/
theorem C15_example (scalar : ℝ → ℝ → Rule) (cl pt : Attrs → Except PyErr Val) (P : ℝ) :
    ∃ a, gbsCls.construct (gbsKwV (.arr [90, 100, 110]) (.num 95) (.num 1) (.num 0.01) (.num 0.02)
        (.none)) = (a, none) ∧
      (volatility scalar (fun x0 => .done (.arr x0)) gbsCls cl pt 0 (.num P) true [a]).1
        = .ok (.arr [1, 1, 1]) := by
  obtain ⟨a, ha⟩ : ∃ a, gbsCls.construct (gbsKwV (.arr [90, 100, 110]) (.num 95) (.num 1) (.num 0.01)
      (.num 0.02) (.none)) = (a, none) := by
    simp [Cls.construct, Cls.init, gbsCls, gbsKwV, bindArgs, req, dflt, optionInit, assignParams,
      GBSClass.initD, exec, Expr.eval, isNoneArg, Attrs.set, List.lookup]
  obtain ⟨d, hd, h1, -⟩ := C15_solver_choice (c := gbsCls) (by simp [classes]) scalar
    (fun x0 => .done (.arr x0)) cl pt ha [] [a] 0 rfl (.num P) true
  rw [show gbsCls.runCatch [] a = a from rfl, gbs_params_ofV ha] at hd
  cases hd
  obtain ⟨L, ⟨xs, hx, hL⟩, -, h2⟩ := h1 ⟨[90, 100, 110], by simp [gbsKwV], by simp⟩
  simp only [gbsKwV, List.map_cons, List.map_nil, List.mem_cons, Val.arr.injEq, reduceCtorEq,
    List.not_mem_nil, or_false, false_or] at hx
  subst hx
  subst hL
  exact ⟨a, ha, by rw [h2]; rfl⟩

/-! ### C56 -/

/-- Ask for the values at given points and return their weighted sum. -/
noncomputable def linearRule : List (ℝ × ℝ) → ℝ → Rule
  | [], acc => .done (.num acc)
  | (x, w) :: l, acc => .ask (.num x) fun y => match y with
    | .num v => linearRule l (acc + w * v)
    | _ => .fail .typeError

/-- A differentiation scheme: for each order, step option and point, the nodes and weights; exact on
affine functions (first derivative of `α + β x` is `β`, second derivative 0). -/
structure LinearScheme where
  nodes : ℕ → Option ℝ → ℝ → List (ℝ × ℝ)
  const : ∀ n step x, ((nodes n step x).map (·.2)).sum = 0
  slope₁ : ∀ step x, ((nodes 1 step x).map (fun p => p.2 * p.1)).sum = 1
  slope₂ : ∀ step x, ((nodes 2 step x).map (fun p => p.2 * p.1)).sum = 0

/-- The rule of a scheme. -/
noncomputable def LinearScheme.diff (L : LinearScheme) : Diff := fun n step x => match x with
  | .num x => linearRule (L.nodes n step x) 0
  | _ => .fail .typeError

theorem linearRule_parity {f g : Val → Except PyErr Val} {α β : ℝ}
    (h : ∀ x, ∃ u v, f (.num x) = .ok (.num u) ∧ g (.num x) = .ok (.num v) ∧ u - v = α + β * x) :
    ∀ (l : List (ℝ × ℝ)) (a b : ℝ), ∃ U V, (linearRule l a).runPure f = .ok (.num U) ∧
      (linearRule l b).runPure g = .ok (.num V) ∧
      U - V = (a - b) + α * (l.map (·.2)).sum + β * (l.map (fun p => p.2 * p.1)).sum := by
  intro l
  induction l with
  | nil => intro a b; exact ⟨a, b, rfl, rfl, by simp⟩
  | cons p l ih =>
    obtain ⟨x, w⟩ := p
    intro a b
    obtain ⟨u, v, hu, hv, huv⟩ := h x
    obtain ⟨U, V, h1, h2, h3⟩ := ih (a + w * u) (b + w * v)
    refine ⟨U, V, ?_, ?_, ?_⟩
    · simp only [linearRule, Rule.runPure, hu]; exact h1
    · simp only [linearRule, Rule.runPure, hv]; exact h2
    · rw [h3]
      simp only [List.map_cons, List.sum_cons]
      linear_combination w * huv

/-- **C56 (any model).** Let `f`, `g` be the functions differentiated for the call and for the put (for
any option class), numeric and with `f x - g x = α + β x` (parity, affine in the parameter). Then for
every scheme exact on affine functions the first-order greeks differ by `β` (times the sign factor) and
the second-order greeks agree. -/
theorem C56_scheme (L : LinearScheme) {f g : Val → Except PyErr Val} {α β : ℝ}
    (h : ∀ x, ∃ u v, f (.num x) = .ok (.num u) ∧ g (.num x) = .ok (.num v) ∧ u - v = α + β * x)
    (step : Option ℝ) (x : ℝ) :
    (∃ U V, (L.diff 1 step (.num x)).runPure f = .ok (.num U) ∧
      (L.diff 1 step (.num x)).runPure g = .ok (.num V) ∧ U - V = β) ∧
    (∃ U, (L.diff 2 step (.num x)).runPure f = .ok (.num U) ∧
      (L.diff 2 step (.num x)).runPure g = .ok (.num U)) := by
  constructor
  · obtain ⟨U, V, h1, h2, h3⟩ := linearRule_parity h (L.nodes 1 step x) 0 0
    refine ⟨U, V, h1, h2, ?_⟩
    rw [h3, L.const, L.slope₁]; ring
  · obtain ⟨U, V, h1, h2, h3⟩ := linearRule_parity h (L.nodes 2 step x) 0 0
    rw [L.const, L.slope₂] at h3
    obtain rfl : U = V := by linarith
    exact ⟨U, h1, h2⟩

/-- **C56 (GBS).** On any numeric `GBSOption` at any address of any heap and every scheme exact on affine
functions: `delta(call) - delta(put) = e^{(b-r)t}`; and the finite-difference `vega()` and `gamma()`,
which the code always computes from the call, are exactly what the scheme gives on the put prices. -/
theorem C56_gbs (L : LinearScheme) (S K t r b σ : ℝ) (hK : K ≠ 0) {a : Attrs}
    (ha : gbsCls.construct (gbsKw S K t r b (.num σ)) = (a, none)) (h : Heap) (i : ℕ)
    (hi : i < h.length) (hat : h.getD i Attrs.empty = a) :
    ∃ dc dp vg gm,
      (fdmDelta L.diff gbsCls GBSClass.call.run GBSClass.put.run i true h).1 = .ok (.num dc) ∧
      (fdmDelta L.diff gbsCls GBSClass.call.run GBSClass.put.run i false h).1 = .ok (.num dp) ∧
      dc - dp = exp ((b - r) * t) ∧
      (fdmVega L.diff gbsCls GBSClass.call.run GBSClass.put.run i h).1 = .ok (.num vg) ∧
      (L.diff 1 none (.num σ)).runPure (fun x =>
        gbsCls.freshPrice GBSClass.put.run (gbsKw S K t r b (.num σ)) "sigma" x) = .ok (.num vg) ∧
      (fdmGamma L.diff gbsCls GBSClass.call.run GBSClass.put.run i h).1 = .ok (.num gm) ∧
      (L.diff 2 none (.num S)).runPure (fun x =>
        gbsCls.freshPrice GBSClass.put.run (gbsKw S K t r b (.num σ)) "S" x) = .ok (.num gm) := by
  have hc : gbsCls ∈ classes := by simp [classes]
  have hd := gbs_params_of ha
  have hR : ∀ m ∈ GBSClass.methods, gbsCls.Respects m.run := fun m hm =>
    (C10_prices_respect hc).1 m (by simpa [methodsOf, gbsCls] using hm)
  have hcl := hR GBSClass.call (by simp [GBSClass.methods])
  have hpt := hR GBSClass.put (by simp [GBSClass.methods])
  obtain ⟨a', ha', hg⟩ := isGBS_construct S K t r b σ hK
  rw [ha] at ha'
  obtain rfl : a = a' := (Prod.mk.inj ha').1
  have hSa : a "_S" = some (.num S) := hg.S
  have hσa : a "_sigma" = some (.num σ) := by
    obtain ⟨s, h1, h2⟩ := hg.sigma
    simp only [GBS.new, Option.some.injEq] at h1
    rw [h2, h1]
  have pS : ∀ x, ∃ u v,
      gbsCls.freshPrice GBSClass.call.run (gbsKw S K t r b (.num σ)) "S" (.num x) = .ok (.num u) ∧
      gbsCls.freshPrice GBSClass.put.run (gbsKw S K t r b (.num σ)) "S" (.num x) = .ok (.num v) ∧
      u - v = -(K * exp (-r * t)) + exp ((b - r) * t) * x := by
    intro x
    obtain ⟨c, p, h1, h2, h3⟩ := C01_gbs_parity x K t r b σ
    obtain ⟨e1, e2, -, -⟩ := gbs_freshPrice S K t r b σ x
    refine ⟨c, p, by rw [e1 hK, h1]; rfl, by rw [e2 hK, h2]; rfl, by rw [h3]; ring⟩
  have pσ : ∀ x, ∃ u v,
      gbsCls.freshPrice GBSClass.call.run (gbsKw S K t r b (.num σ)) "sigma" (.num x) = .ok (.num u) ∧
      gbsCls.freshPrice GBSClass.put.run (gbsKw S K t r b (.num σ)) "sigma" (.num x) = .ok (.num v) ∧
      u - v = (S * exp ((b - r) * t) - K * exp (-r * t)) + 0 * x := by
    intro x
    obtain ⟨c, p, h1, h2, h3⟩ := C01_gbs_parity S K t r b x
    obtain ⟨-, -, e1, e2⟩ := gbs_freshPrice S K t r b σ x
    refine ⟨c, p, by rw [e1 hK, h1]; rfl, by rw [e2 hK, h2]; rfl, by rw [h3]; ring⟩
  obtain ⟨⟨dc, dp, d1, d2, d3⟩, gm, g1, g2⟩ := C56_scheme L pS none S
  obtain ⟨⟨vc, vp, v1, v2, v3⟩, -⟩ := C56_scheme L pσ none σ
  obtain rfl : vc = vp := by linarith
  refine ⟨dc, dp, vc, gm, ?_, ?_, d3, ?_, v2, ?_, g2⟩
  · obtain ⟨cp, e⟩ := partialAt_harmless hc L.diff hcl hpt hd hi hat "S" "_S" true 1 none 1
    unfold fdmDelta
    rw [e]
    simp only [fdSpec, attrOf, hSa, ok_bind, if_true, d1, scale, Val.map₂, mul_one]
  · obtain ⟨cp, e⟩ := partialAt_harmless hc L.diff hcl hpt hd hi hat "S" "_S" false 1 none 1
    unfold fdmDelta
    rw [e]
    simp only [fdSpec, attrOf, hSa, ok_bind, Bool.false_eq_true, if_false, d2, scale, Val.map₂, mul_one]
  · obtain ⟨cp, e⟩ := partialAt_harmless hc L.diff hcl hpt hd hi hat "sigma" "_sigma" true 1 none 1
    unfold fdmVega
    rw [e]
    simp only [fdSpec, attrOf, hσa, ok_bind, if_true, v1, scale, Val.map₂, mul_one]
  · obtain ⟨cp, e⟩ := partialAt_harmless hc L.diff hcl hpt hd hi hat "S" "_S" true 2 none 1
    unfold fdmGamma
    rw [e]
    simp only [fdSpec, attrOf, hSa, ok_bind, if_true, g1, scale, Val.map₂, mul_one]

/-- Example for C56: central differences with step 1 form such a scheme. -/
noncomputable def centralScheme : LinearScheme where
  nodes n _ x := if n = 1 then [(x + 1, 1 / 2), (x - 1, -1 / 2)]
    else [(x + 1, 1), (x, -2), (x - 1, 1)]
  const n _ x := by
    by_cases h : n = 1 <;> simp [h] <;> norm_num
  slope₁ _ x := by simp; ring
  slope₂ _ x := by simp; ring

/-- Example for C56: the central-difference gamma of a call. -/
theorem C56_example : ∃ a gm,
    gbsCls.construct (gbsKw 100 95 1 0.01 0.02 (.num 0.2)) = (a, none) ∧
    (fdmGamma centralScheme.diff gbsCls GBSClass.call.run GBSClass.put.run 0 [a]).1 = .ok (.num gm) ∧
    (centralScheme.diff 2 none (.num 100)).runPure (fun x => gbsCls.freshPrice GBSClass.put.run
      (gbsKw 100 95 1 0.01 0.02 (.num 0.2)) "S" x) = .ok (.num gm) := by
  obtain ⟨a, ha, -⟩ := isGBS_construct 100 95 1 0.01 0.02 0.2 (by norm_num)
  obtain ⟨_, _, _, gm, -, -, -, -, -, h1, h2⟩ := C56_gbs centralScheme 100 95 1 0.01 0.02 0.2
    (by norm_num) ha [a] 0 (by simp) rfl
  exact ⟨a, gm, ha, h1, h2⟩

end Verif.Props
