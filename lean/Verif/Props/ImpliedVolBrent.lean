import Verif.Props.ImpliedVolAccuracy
import Verif.Lemmas.SmoothPut

/-!
# C102: what the tolerance of `volatility` controls

`_volatility` hands `tol` to scipy as `xtol`: the solver stops when a sign change of its target is enclosed up to `tol`
in the *volatility*, whereas the documentation calls `tol` the "max tolerance to fit the price to".
-/
namespace Verif.Props
open Verif Verif.Spec Real Filter Topology Set

/-- What scipy's bracketing solvers promise: the number returned is within `δ` of a point where the target is not
positive and of a point where it is not negative. -/
def SignChange (δ : ℝ) (rule : Rule) : Prop :=
  ∀ g v, rule.runPure g = .ok v → ∃ x a b ya yb, v = .num x ∧ g (.num a) = .ok (.num ya) ∧
    g (.num b) = .ok (.num yb) ∧ ya ≤ 0 ∧ 0 ≤ yb ∧ |x - a| ≤ δ ∧ |x - b| ≤ δ

/-- `volatility` on a `GBSOption` with numeric parameters runs the solver on `P - price(σ)`; no existing object is
changed. -/
theorem volatility_run (S K t r b P : ℝ) (hK : K ≠ 0) (σ₀ : Val) (hσ₀ : σ₀ = .none ∨ ∃ s, σ₀ = .num s)
    {a : Attrs} (ha : gbsCls.construct (gbsKw S K t r b σ₀) = (a, none)) (scalar : ℝ → ℝ → Rule)
    (vec : List ℝ → Rule) (h : Heap) (i : ℕ)
    (hi : i < h.length) (hat : h.getD i Attrs.empty = a) (call : Bool) :
    ∃ (g : Val → Except PyErr Val) (copies : Heap),
      (∀ σ, g (.num σ) = ((GBS.new S K t r b (some σ)).price call).map fun u => .num (P - u)) ∧
      volatility scalar vec gbsCls GBSClass.call.run GBSClass.put.run i (.num P) call h
        = ((scalar (-10) 10).runPure g, h ++ copies) := by
  have hc : gbsCls ∈ classes := by simp [classes]
  have hd := gbs_params_of ha
  obtain ⟨d, hd', -, hch⟩ := C15_solver_choice hc scalar vec GBSClass.call.run GBSClass.put.run ha [] h
    i (by simpa [Cls.runCatch] using hat) (.num P) call
  rw [show gbsCls.runCatch [] a = a from rfl, hd] at hd'
  cases hd'
  rw [hch (by rcases hσ₀ with rfl | ⟨s, rfl⟩ <;> simp [gbsKw])]
  have hR : ∀ m ∈ GBSClass.methods, gbsCls.Respects m.run := fun m hm =>
    (C10_prices_respect hc).1 m (by simpa [methodsOf, gbsCls] using hm)
  have hcl := hR GBSClass.call (by simp [GBSClass.methods])
  have hpt := hR GBSClass.put (by simp [GBSClass.methods])
  obtain ⟨copies, hrun⟩ := rule_harmless (a := a)
    (fun h' x _ ha' => volFunc_harmless hc hcl hpt call ha' hd (.num P) x) (scalar (-10) 10) h hi hat
  refine ⟨_, copies, fun σ => ?_, hrun⟩
  rw [gbs_freshSigma S K t r b σ₀ σ hK call]
  rcases (GBS.new S K t r b (some σ)).price call with e | u
  · rfl
  · rfl

theorem gbs_price_ok (S K t r b σ : ℝ) (call : Bool) : ∃ u, (GBS.new S K t r b (some σ)).price call = .ok u := by
  cases call
  · exact ⟨_, rfl⟩
  · exact ⟨_, rfl⟩

/-- Prices at negative volatilities do not exceed the accuracy of the normal approximation. -/
theorem price_neg_le {S K t r b σ u : ℝ} (hS : 0 < S) (hK : 0 < K) (ht : 0 < t) (hσ : σ < 0) {call : Bool}
    (hu : (GBS.new S K t r b (some σ)).price call = .ok u) :
    u ≤ 7.5e-8 * (S * exp ((b - r) * t) + K * exp (-r * t)) := by
  obtain ⟨x, hx, hxe⟩ := C02_price_accuracy ⟨hS, hK, ht, neg_pos.2 hσ⟩ r b (!call)
  have hx0 : -(7.5e-8 * (S * exp ((b - r) * t) + K * exp (-r * t))) ≤ x := by
    have := bsPrice_nonneg (!call) S K t r b (-σ)
    linarith [(abs_le.1 hxe).1]
  have hux : u = -x := by
    cases call
    · obtain ⟨p, c, h1, h2, h3⟩ := put_negative_sigma S K t r b (-σ)
      rw [neg_neg] at h1
      have e1 : u = p := by have := hu.symm.trans h1; injection this
      have e2 : x = c := by have := hx.symm.trans h2; injection this
      rw [e1, e2, h3]
    · obtain ⟨c, p, h1, h2, h3⟩ := C13_negative_sigma S K t r b (-σ)
      rw [neg_neg] at h1
      have e1 : u = c := by have := hu.symm.trans h1; injection this
      have e2 : x = p := by have := hx.symm.trans h2; injection this
      rw [e1, e2, h3]
  linarith

/-- In the model the price at volatility zero is below every attainable price. (In the code it is the intrinsic value or
`nan`; the former is below every attainable price as well.) -/
theorem price_zero_lt {S K t r b s u : ℝ} (hS : 0 < S) (hK : 0 < K) (ht : 0 < t) (hs : 0 < s) {call : Bool}
    (hu : (GBS.new S K t r b (some 0)).price call = .ok u) : u < bsPrice call S K t r b s := by
  have hd1 : GBS.d1Expr S K t b 0 = 0 := by simp [GBS.d1Expr]
  have hd2 : GBS.d2Expr (GBS.d1Expr S K t b 0) 0 t = 0 := by rw [hd1]; simp [GBS.d2Expr]
  have hc0 : CND 0 = 1 / 2 := by simp [CND, npSign]; norm_num
  cases call
  · have e : u = K * exp (-r * t) * (1 / 2) - S * exp ((b - r) * t) * (1 / 2) := by
      have : (GBS.new S K t r b (some 0)).price false = .ok (K * exp (-r * t) * CND (-(GBS.d2Expr (GBS.d1Expr S K t b 0) 0 t))
        - S * exp ((b - r) * t) * CND (-(GBS.d1Expr S K t b 0))) := rfl
      rw [this, hd2, hd1, neg_zero, hc0] at hu
      injection hu with hu; exact hu.symm
    have h := (C13_unique_put hS hK ht r b (bsPut S K t r b s)).2 s hs rfl
    have hb : bsPrice false S K t r b s = bsPut S K t r b s := rfl
    have m1 := le_max_left (K * exp (-r * t) - S * exp ((b - r) * t)) 0
    have m2 := le_max_right (K * exp (-r * t) - S * exp ((b - r) * t)) 0
    rw [hb, e]; linarith [h.1]
  · have e : u = S * exp ((b - r) * t) * (1 / 2) - K * exp (-r * t) * (1 / 2) := by
      have : (GBS.new S K t r b (some 0)).price true = .ok (S * exp ((b - r) * t) * CND (GBS.d1Expr S K t b 0)
        - K * exp (-r * t) * CND (GBS.d2Expr (GBS.d1Expr S K t b 0) 0 t)) := rfl
      rw [this, hd2, hd1, hc0] at hu
      injection hu with hu; exact hu.symm
    have h := (C13_unique_call hS hK ht r b (bsCall S K t r b s)).2 s hs rfl
    have hb : bsPrice true S K t r b s = bsCall S K t r b s := rfl
    have m1 := le_max_left (S * exp ((b - r) * t) - K * exp (-r * t)) 0
    have m2 := le_max_right (S * exp ((b - r) * t) - K * exp (-r * t)) 0
    rw [hb, e]; linarith [h.1]

/-- **C102, what `tol` bounds.** Whatever `volatility(P)` returns by way of a solver that encloses a sign change up to
`δ` is within `δ` plus the accuracy of the normal approximation over the smallest vega of the exact implied volatility
`s`; nothing has to be known about where the returned number lies. -/
theorem C102_accuracy (S K t r b P δ : ℝ) (hS : 0 < S) (hK : 0 < K) (ht : 0 < t) (σ₀ : Val)
    (hσ₀ : σ₀ = .none ∨ ∃ s, σ₀ = .num s)
    {a : Attrs} (ha : gbsCls.construct (gbsKw S K t r b σ₀) = (a, none)) (scalar : ℝ → ℝ → Rule)
    (vec : List ℝ → Rule) (hfind : SignChange δ (scalar (-10) 10)) (h : Heap) (i : ℕ)
    (hi : i < h.length) (hat : h.getD i Attrs.empty = a) (call : Bool) {v : Val} {h' : Heap}
    (hres : volatility scalar vec gbsCls GBSClass.call.run GBSClass.put.run i (.num P) call h = (.ok v, h'))
    {lo up s ε w : ℝ} (hε : ε = 7.5e-8 * (S * exp ((b - r) * t) + K * exp (-r * t)))
    (hw : w = vegaMin S K t r b lo up) (hlo : 0 < lo) (hs1 : lo ≤ s - ε / w) (hs2 : s + ε / w ≤ up)
    (hsP : bsPrice call S K t r b s = P) (hP : ε < P) :
    ∃ σ, v = .num σ ∧ |σ - s| ≤ δ + ε / w := by
  obtain ⟨g, copies, hg, hrun⟩ := volatility_run S K t r b P hK.ne' σ₀ hσ₀ ha scalar vec h i hi hat call
  rw [hrun] at hres
  obtain ⟨σ, x, y, fx, fy, rfl, hx, hy, hfx, hfy, dx, dy⟩ := hfind g v (Prod.mk.inj hres).1
  refine ⟨σ, rfl, ?_⟩
  have hw0 : 0 < w := hw ▸ vegaMin_pos hS ht
  have hε0 : 0 ≤ ε := by rw [hε]; positivity
  have hq : 0 ≤ ε / w := by positivity
  have hs0 : 0 < s := by linarith
  have hmul : w * (ε / w) = ε := by field_simp
  have hδ : 0 ≤ δ := (abs_nonneg _).trans dx
  obtain ⟨ux, hux⟩ := gbs_price_ok S K t r b x call
  obtain ⟨uy, huy⟩ := gbs_price_ok S K t r b y call
  have ex : fx = P - ux := by
    rw [hg, hux] at hx; simp only [Except.map, Except.ok.injEq, Val.num.injEq] at hx; exact hx.symm
  have ey : fy = P - uy := by
    rw [hg, huy] at hy; simp only [Except.map, Except.ok.injEq, Val.num.injEq] at hy; exact hy.symm
  have hmono : ∀ p q : ℝ, 0 < p → p < q → bsPrice call S K t r b p < bsPrice call S K t r b q := by
    intro p q hp hpq
    have h1 := bsPrice_diff call (S := S) (K := K) (r := r) (b := b) (x := p) (y := q) ht
    have h2 := bsCall_strictMono hS hK ht r b hp (hp.trans hpq : (0 : ℝ) < q) hpq
    simp only at h2
    linarith
  have near : ∀ p u, 0 < p → (GBS.new S K t r b (some p)).price call = .ok u →
      |u - bsPrice call S K t r b p| ≤ ε := by
    intro p u hp hu
    obtain ⟨u', hu', he⟩ := C02_price_accuracy ⟨hS, hK, ht, hp⟩ r b call
    have : u = u' := by have := hu.symm.trans hu'; injection this
    rw [this, hε]; exact he
  -- the lower end
  have hxl : s - ε / w ≤ x := by
    rcases lt_trichotomy x 0 with h0 | h0 | h0
    · have := price_neg_le hS hK ht h0 hux
      rw [← hε] at this; linarith
    · subst h0
      have := price_zero_lt hS hK ht hs0 hux
      linarith
    · by_contra hc
      push Not at hc
      have h1 := hmono x (s - ε / w) h0 hc
      have h2 := vol_separated (r := r) (b := b) (lo := lo) (hi := up) (x := s - ε / w) (y := s) hS hK ht hlo
        (by linarith) hs1 (by linarith)
      rw [← hw, sub_sub_cancel, hmul, ← bsPrice_diff call ht, hsP] at h2
      have h3 := (abs_le.1 (near x ux h0 hux)).2
      linarith
  have hyu : y ≤ s + ε / w := by
    rcases le_or_gt y 0 with h0 | h0
    · linarith
    · by_contra hc
      push Not at hc
      have h1 := hmono (s + ε / w) y (by linarith) hc
      have h2 := vol_separated (r := r) (b := b) (lo := lo) (hi := up) (x := s) (y := s + ε / w) hS hK ht hlo
        (by linarith) (by linarith) hs2
      rw [← hw, add_sub_cancel_left, hmul, ← bsPrice_diff call ht, hsP] at h2
      have h3 := (abs_le.1 (near y uy h0 huy)).1
      linarith
  have d1 := abs_le.1 dx
  have d2 := abs_le.1 dy
  rw [abs_le]; constructor <;> linarith

/-- Bisection with `n` steps after a look at both ends; the target decreases. -/
noncomputable def bisectGo : ℕ → ℝ → ℝ → Rule
  | 0, lo, hi => .done (.num ((lo + hi) / 2))
  | n + 1, lo, hi => .ask (.num ((lo + hi) / 2)) fun y => match y with
    | .num v => if v ≤ 0 then bisectGo n lo ((lo + hi) / 2) else bisectGo n ((lo + hi) / 2) hi
    | _ => .fail .typeError

/-- Bisection, refusing brackets without a sign change. -/
noncomputable def bisect (n : ℕ) (lo hi : ℝ) : Rule :=
  .ask (.num lo) fun y => match y with
    | .num u => .ask (.num hi) fun y' => match y' with
      | .num v => if 0 ≤ u ∧ v ≤ 0 then bisectGo n lo hi else .fail .valueError
      | _ => .fail .typeError
    | _ => .fail .typeError

private theorem bisectGo_spec (g : Val → Except PyErr Val) (n : ℕ) :
    ∀ lo hi ylo yhi v, lo ≤ hi → g (.num lo) = .ok (.num ylo) → g (.num hi) = .ok (.num yhi) → 0 ≤ ylo → yhi ≤ 0 →
      (bisectGo n lo hi).runPure g = .ok v →
      ∃ x a b ya yb, v = .num x ∧ g (.num a) = .ok (.num ya) ∧
        g (.num b) = .ok (.num yb) ∧ ya ≤ 0 ∧ 0 ≤ yb ∧ |x - a| ≤ (hi - lo) / 2 ^ n / 2 ∧ |x - b| ≤ (hi - lo) / 2 ^ n / 2 := by
  induction n with
  | zero =>
    intro lo hi ylo yhi v hle h1 h2 h3 h4 hv
    refine ⟨(lo + hi) / 2, hi, lo, yhi, ylo, ?_, h2, h1, h4, h3, ?_, ?_⟩
    · simpa [bisectGo, Rule.runPure] using hv.symm
    · rw [pow_zero, div_one, abs_le]; constructor <;> linarith
    · rw [pow_zero, div_one, abs_le]; constructor <;> linarith
  | succ n ih =>
    intro lo hi ylo yhi v hle h1 h2 h3 h4 hv
    have e : ∀ w, w = (hi - lo) / 2 → w / 2 ^ n / 2 = (hi - lo) / 2 ^ (n + 1) / 2 := by
      rintro w rfl; rw [pow_succ]; field_simp
    rw [bisectGo, Rule.runPure] at hv
    cases hy : g (.num ((lo + hi) / 2)) with
    | error er => rw [hy] at hv; cases hv
    | ok y =>
      rw [hy] at hv
      cases y with
      | num y =>
        simp only at hv
        split_ifs at hv with hc
        · have q := ih lo ((lo + hi) / 2) ylo y v (by linarith) h1 hy h3 hc hv
          rwa [e _ (by ring)] at q
        · have q := ih ((lo + hi) / 2) hi y yhi v (by linarith) hy h2 (not_le.1 hc).le h4 hv
          rwa [e _ (by ring)] at q
      | _ => simp [Rule.runPure] at hv

private theorem bisectGo_returns (g : Val → Except PyErr Val) (hg : ∀ x, ∃ y, g (.num x) = .ok (.num y)) (n : ℕ) :
    ∀ lo hi, ∃ v, (bisectGo n lo hi).runPure g = .ok v := by
  induction n with
  | zero => intro lo hi; exact ⟨_, rfl⟩
  | succ n ih =>
    intro lo hi
    obtain ⟨y, hy⟩ := hg ((lo + hi) / 2)
    rw [bisectGo, Rule.runPure, hy]
    simp only
    split_ifs
    · exact ih _ _
    · exact ih _ _

/-- Bisection keeps the solvers' promise. -/
theorem bisect_signChange (n : ℕ) {lo hi : ℝ} (hle : lo ≤ hi) : SignChange ((hi - lo) / 2 ^ n / 2) (bisect n lo hi) := by
  intro g v hv
  rw [bisect, Rule.runPure] at hv
  cases h1 : g (.num lo) with
  | error er => rw [h1] at hv; cases hv
  | ok y =>
    rw [h1] at hv
    cases y with
    | num y =>
      simp only [Rule.runPure] at hv
      cases h2 : g (.num hi) with
      | error er => rw [h2] at hv; cases hv
      | ok z =>
        rw [h2] at hv
        cases z with
        | num z =>
          simp only at hv
          split_ifs at hv with hc
          · exact bisectGo_spec g n lo hi y z v hle h1 h2 hc.1 hc.2 hv
          · simp [Rule.runPure] at hv
        | _ => simp [Rule.runPure] at hv
    | _ => simp [Rule.runPure] at hv

/-- **C102, a solver for which `volatility` always succeeds.** With bisection in the solver's place `volatility(P)`
returns for every attainable price below the coded price at volatility 10, and the result is within `10 / 2^n` plus
the accuracy of the prices of the exact implied volatility. -/
theorem C102_bisection (S K t r b P : ℝ) (hS : 0 < S) (hK : 0 < K) (ht : 0 < t) (σ₀ : Val)
    (hσ₀ : σ₀ = .none ∨ ∃ s, σ₀ = .num s)
    {a : Attrs} (ha : gbsCls.construct (gbsKw S K t r b σ₀) = (a, none)) (n : ℕ)
    (vec : List ℝ → Rule) (h : Heap) (i : ℕ)
    (hi : i < h.length) (hat : h.getD i Attrs.empty = a) (call : Bool)
    {lo up s ε w : ℝ} (hε : ε = 7.5e-8 * (S * exp ((b - r) * t) + K * exp (-r * t)))
    (hw : w = vegaMin S K t r b lo up) (hlo : 0 < lo) (hs1 : lo ≤ s - ε / w) (hs2 : s + ε / w ≤ up)
    (hsP : bsPrice call S K t r b s = P) (hP : ε < P) (hten : P + ε ≤ bsPrice call S K t r b 10) :
    ∃ σ h', volatility (bisect n) vec gbsCls GBSClass.call.run GBSClass.put.run i (.num P) call h
        = (.ok (.num σ), h') ∧ |σ - s| ≤ 10 / 2 ^ n + ε / w := by
  have hfind : SignChange (10 / 2 ^ n) (bisect n (-10) 10) := by
    have := bisect_signChange n (lo := -10) (hi := 10) (by norm_num)
    have e : ((10 : ℝ) - -10) / 2 ^ n / 2 = 10 / 2 ^ n := by field_simp; norm_num
    rwa [e] at this
  obtain ⟨g, copies, hg, hrun⟩ := volatility_run S K t r b P hK.ne' σ₀ hσ₀ ha (bisect n) vec h i hi hat call
  have hgt : ∀ x, ∃ y, g (.num x) = .ok (.num y) := by
    intro x
    obtain ⟨u, hu⟩ := gbs_price_ok S K t r b x call
    exact ⟨P - u, by rw [hg, hu]; rfl⟩
  obtain ⟨v, hv⟩ : ∃ v, (bisect n (-10) 10).runPure g = .ok v := by
    obtain ⟨u, hu⟩ := gbs_price_ok S K t r b (-10) call
    obtain ⟨q, hq, hqe⟩ := C02_price_accuracy (σ := 10) ⟨hS, hK, ht, by norm_num⟩ r b call
    have h1 : g (.num (-10)) = .ok (.num (P - u)) := by rw [hg, hu]; rfl
    have h2 : g (.num 10) = .ok (.num (P - q)) := by rw [hg, hq]; rfl
    have hu' := price_neg_le hS hK ht (by norm_num) hu
    rw [← hε] at hu' hqe
    have hc : 0 ≤ P - u ∧ P - q ≤ 0 := ⟨by linarith, by linarith [(abs_le.1 hqe).1]⟩
    obtain ⟨v, hv⟩ := bisectGo_returns g hgt n (-10) 10
    refine ⟨v, ?_⟩
    rw [bisect, Rule.runPure, h1]
    simp only [Rule.runPure, h2]
    rw [if_pos hc]; exact hv
  have hall : volatility (bisect n) vec gbsCls GBSClass.call.run GBSClass.put.run i (.num P) call h
      = (.ok v, h ++ copies) := by rw [hrun, hv]
  obtain ⟨σ, rfl, hσ⟩ := C102_accuracy S K t r b P _ hS hK ht σ₀ hσ₀ ha (bisect n) vec hfind h i hi hat call hall
    hε hw hlo hs1 hs2 hsP hP
  exact ⟨σ, _, hall, hσ⟩

/-- Vega is at most `0.4 S e^{(b-r)t} √t`, so prices at volatilities close to each other are close. -/
theorem bsPrice_vol_lip (call : Bool) {S K t r b x y : ℝ} (hS : 0 < S) (hK : 0 < K) (ht : 0 < t) (hx : 0 < x) (hy : 0 < y) :
    |bsPrice call S K t r b y - bsPrice call S K t r b x| ≤ 0.4 * (S * exp ((b - r) * t) * √t) * |y - x| := by
  rw [bsPrice_diff call ht]
  have key : ∀ x y : ℝ, 0 < x → x < y →
      |bsCall S K t r b y - bsCall S K t r b x| ≤ 0.4 * (S * exp ((b - r) * t) * √t) * |y - x| := by
    intro x y hx hlt
    obtain ⟨c, hc, he⟩ := exists_hasDerivAt_eq_slope (fun σ => bsCall S K t r b σ)
      (fun σ => S * exp ((b - r) * t) * φ (D1 S K t b σ) * √t) hlt
      (fun σ hσ => (deriv_call_σ hS hK ht (by linarith [hσ.1])).continuousAt.continuousWithinAt)
      (fun σ hσ => deriv_call_σ hS hK ht (by linarith [hσ.1]))
    rw [eq_div_iff (by linarith)] at he
    have hst := sqrt_nonneg t
    have h1 := φ_le_c (D1 S K t b c)
    have h2 := φ_pos (D1 S K t b c)
    rw [← he, abs_mul]
    refine mul_le_mul_of_nonneg_right ?_ (abs_nonneg _)
    rw [abs_of_nonneg (by positivity)]
    calc S * exp ((b - r) * t) * φ (D1 S K t b c) * √t = φ (D1 S K t b c) * (S * exp ((b - r) * t) * √t) := by ring
      _ ≤ 0.4 * (S * exp ((b - r) * t) * √t) := mul_le_mul_of_nonneg_right (by linarith) (by positivity)
  rcases lt_trichotomy x y with h | h | h
  · exact key x y hx h
  · simp [h]
  · rw [abs_sub_comm, abs_sub_comm y x]; exact key y x hy h

/-- **C102, what `tol` means for the price.** The coded price at the returned volatility misses `P` by at most the
largest vega times `tol`, plus terms of the size of the accuracy of the prices. -/
theorem C102_price_partial (S K t r b P δ : ℝ) (hS : 0 < S) (hK : 0 < K) (ht : 0 < t) (σ₀ : Val)
    (hσ₀ : σ₀ = .none ∨ ∃ s, σ₀ = .num s)
    {a : Attrs} (ha : gbsCls.construct (gbsKw S K t r b σ₀) = (a, none)) (scalar : ℝ → ℝ → Rule)
    (vec : List ℝ → Rule) (hfind : SignChange δ (scalar (-10) 10)) (h : Heap) (i : ℕ)
    (hi : i < h.length) (hat : h.getD i Attrs.empty = a) (call : Bool) {v : Val} {h' : Heap}
    (hres : volatility scalar vec gbsCls GBSClass.call.run GBSClass.put.run i (.num P) call h = (.ok v, h'))
    {lo up s ε w : ℝ} (hε : ε = 7.5e-8 * (S * exp ((b - r) * t) + K * exp (-r * t)))
    (hw : w = vegaMin S K t r b lo up) (hlo : 0 < lo) (hs1 : lo ≤ s - ε / w) (hs2 : s + ε / w ≤ up)
    (hsP : bsPrice call S K t r b s = P) (hP : ε < P) (hδ : δ < lo) :
    ∃ σ u, v = .num σ ∧ (GBS.new S K t r b (some σ)).price call = .ok u ∧
      |P - u| ≤ 0.4 * (S * exp ((b - r) * t) * √t) * (δ + ε / w) + ε := by
  obtain ⟨σ, rfl, hσ⟩ := C102_accuracy S K t r b P δ hS hK ht σ₀ hσ₀ ha scalar vec hfind h i hi hat call hres
    hε hw hlo hs1 hs2 hsP hP
  have hσ0 : 0 < σ := by linarith [(abs_le.1 hσ).1]
  have hw0 : 0 < w := hw ▸ vegaMin_pos hS ht
  have hs0 : 0 < s := by
    have : 0 ≤ ε / w := by rw [hε]; positivity
    linarith
  obtain ⟨u, hu, hue⟩ := C02_price_accuracy ⟨hS, hK, ht, hσ0⟩ r b call
  rw [← hε] at hue
  refine ⟨σ, u, rfl, hu, ?_⟩
  have hl := bsPrice_vol_lip call (r := r) (b := b) hS hK ht hs0 hσ0
  rw [hsP] at hl
  have hl2 : 0.4 * (S * exp ((b - r) * t) * √t) * |σ - s| ≤ 0.4 * (S * exp ((b - r) * t) * √t) * (δ + ε / w) :=
    mul_le_mul_of_nonneg_left hσ (by positivity)
  have e : P - u = -(bsPrice call S K t r b σ - P) - (u - bsPrice call S K t r b σ) := by ring
  rw [e]
  refine (abs_sub _ _).trans ?_
  rw [abs_neg]; linarith

private theorem atm_vega {up : ℝ} (h0 : 0 ≤ up) (h1 : up ≤ 0.4) (lo : ℝ) : 38 ≤ vegaMin 100 100 1 0 0 lo up := by
  have e : vegaMin 100 100 1 0 0 lo up = 100 * φ (up / 2) := by
    unfold vegaMin
    norm_num
    congr 1; ring
  rw [e]
  have h2 : φ 0.2 ≤ φ (up / 2) := φ_le_of_abs (by rw [abs_of_nonneg (by linarith)]; linarith)
  have h3 : 0.38 ≤ φ 0.2 := by
    unfold φ
    have hs : √(2 * π) ≤ 2.51 := by
      rw [sqrt_le_left (by norm_num)]
      have := pi_lt_d4; norm_num at *; linarith
    have he := add_one_le_exp (-(0.2 : ℝ) ^ 2 / 2)
    rw [le_div_iff₀ (by positivity)]
    nlinarith
  linarith

/-- The solver that looks at `x` and `y` only and returns `y` if the target changes sign between them. -/
noncomputable def twoEnds (x y : ℝ) : Rule :=
  .ask (.num x) fun u => match u with
    | .num u => .ask (.num y) fun v => match v with
      | .num v => if 0 ≤ u ∧ v ≤ 0 then .done (.num y) else .fail .valueError
      | _ => .fail .typeError
    | _ => .fail .typeError

theorem twoEnds_signChange (x y : ℝ) : SignChange |y - x| (twoEnds x y) := by
  intro g v hv
  rw [twoEnds, Rule.runPure] at hv
  cases h1 : g (.num x) with
  | error er => rw [h1] at hv; cases hv
  | ok p =>
    rw [h1] at hv
    cases p with
    | num p =>
      simp only [Rule.runPure] at hv
      cases h2 : g (.num y) with
      | error er => rw [h2] at hv; cases hv
      | ok q =>
        rw [h2] at hv
        cases q with
        | num q =>
          simp only at hv
          split_ifs at hv with hc
          · simp only [Rule.runPure, Except.ok.injEq] at hv
            exact ⟨y, y, x, q, p, hv.symm, h2, h1, hc.2, hc.1, by simp, le_rfl⟩
          · simp [Rule.runPure] at hv
        | _ => simp [Rule.runPure] at hv
    | _ => simp [Rule.runPure] at hv

/-- **C102, `tol` does not bound the error of the price.** For every `tol` from `1e-5` to `0.1` a solver that encloses a
sign change up to `tol`, as scipy's does, makes `volatility(P)` on a one-year at-the-money option with spot 100 return
a volatility whose price misses `P` by more than `30 tol`. -/
theorem C102_price_tol_fails (tol : ℝ) (h0 : 1e-5 ≤ tol) (h1 : tol ≤ 0.1) :
    ∃ a P σ u h', ∃ rule : ℝ → ℝ → Rule, gbsCls.construct (gbsKw 100 100 1 0 0 .none) = (a, none) ∧
      SignChange tol (rule (-10) 10) ∧
      volatility rule (fun _ => .fail .valueError) gbsCls GBSClass.call.run GBSClass.put.run 0 (.num P) true [a]
        = (.ok (.num σ), h') ∧
      (GBS.new 100 100 1 0 0 (some σ)).price true = .ok u ∧ 30 * tol < |P - u| := by
  obtain ⟨a, ha⟩ : ∃ a, gbsCls.construct (gbsKw 100 100 1 0 0 .none) = (a, none) := by
    simp [Cls.construct, Cls.init, gbsCls, gbsKw, bindArgs, req, dflt, optionInit, assignParams,
      GBSClass.initD, exec, Expr.eval, isNoneArg, Attrs.set, List.lookup]
  obtain ⟨P, hP, hPe⟩ := C02_price_accuracy (S := 100) (K := 100) (t := 1) (σ := 0.2)
    ⟨by norm_num, by norm_num, by norm_num, by norm_num⟩ 0 0 true
  obtain ⟨u, hu, hue⟩ := C02_price_accuracy (S := 100) (K := 100) (t := 1) (σ := 0.2 + tol)
    ⟨by norm_num, by norm_num, by norm_num, by linarith⟩ 0 0 true
  obtain ⟨g, copies, hg, hrun⟩ := volatility_run 100 100 1 0 0 P (by norm_num) .none (.inl rfl) ha
    (fun _ _ => twoEnds 0.2 (0.2 + tol)) (fun _ => .fail .valueError) [a] 0 (by simp) rfl true
  have hsep := vol_separated (S := 100) (K := 100) (t := 1) (r := 0) (b := 0) (lo := 0.2) (hi := 0.3) (x := 0.2)
    (y := 0.2 + tol) (by norm_num) (by norm_num) (by norm_num) (by norm_num) (by linarith) (by norm_num) (by linarith)
  have hv := atm_vega (up := 0.3) (by norm_num) (by norm_num) 0.2
  have hv2 : 38 * tol ≤ vegaMin 100 100 1 0 0 0.2 0.3 * (0.2 + tol - 0.2) := by
    rw [add_sub_cancel_left]; exact mul_le_mul_of_nonneg_right hv (by linarith)
  have e : (7.5e-8 : ℝ) * (100 * exp ((0 - 0) * 1) + 100 * exp (-0 * 1)) = 1.5e-5 := by norm_num
  rw [e] at hPe hue
  have hPb := abs_le.1 hPe
  have hub := abs_le.1 hue
  have hb : ∀ z, bsPrice true 100 100 1 0 0 z = bsCall 100 100 1 0 0 z := fun z => rfl
  rw [hb] at hPb hub
  have hgap : 30 * tol < u - P := by
    have : (3e-5 : ℝ) < 8 * tol := by linarith
    linarith [hPb.2, hub.1]
  refine ⟨a, P, 0.2 + tol, u, _, fun _ _ => twoEnds 0.2 (0.2 + tol), ha, ?_, hrun.trans (congrArg (·, _) ?_), hu, ?_⟩
  · have := twoEnds_signChange 0.2 (0.2 + tol)
    rwa [add_sub_cancel_left, abs_of_nonneg (by linarith)] at this
  · have g1 : g (.num 0.2) = .ok (.num (P - P)) := by rw [hg, hP]; rfl
    have g2 : g (.num (0.2 + tol)) = .ok (.num (P - u)) := by rw [hg, hu]; rfl
    simp only [twoEnds, Rule.runPure, g1, g2]
    rw [if_pos ⟨by linarith, by linarith⟩, Rule.runPure]
  · rw [abs_sub_comm]; exact lt_of_lt_of_le hgap (le_abs_self _)

/-- The hypotheses of `C102_accuracy` and `C102_bisection` at a one-year at-the-money option with volatility 0.2. -/
theorem C102_example : ∃ a P ε w σ h', gbsCls.construct (gbsKw 100 100 1 0 0 .none) = (a, none) ∧
    ε = 7.5e-8 * (100 * exp ((0 - 0) * 1) + 100 * exp (-0 * 1)) ∧ w = vegaMin 100 100 1 0 0 0.1 0.3 ∧
    (0.1 : ℝ) ≤ 0.2 - ε / w ∧ 0.2 + ε / w ≤ 0.3 ∧ bsPrice true 100 100 1 0 0 0.2 = P ∧ ε < P ∧
    P + ε ≤ bsPrice true 100 100 1 0 0 10 ∧
    volatility (bisect 20) (fun _ => .fail .valueError) gbsCls GBSClass.call.run GBSClass.put.run 0 (.num P) true [a]
      = (.ok (.num σ), h') ∧ |σ - 0.2| ≤ 1.1e-5 := by
  obtain ⟨a, ha⟩ : ∃ a, gbsCls.construct (gbsKw 100 100 1 0 0 .none) = (a, none) := by
    simp [Cls.construct, Cls.init, gbsCls, gbsKw, bindArgs, req, dflt, optionInit, assignParams,
      GBSClass.initD, exec, Expr.eval, isNoneArg, Attrs.set, List.lookup]
  have e : (7.5e-8 : ℝ) * (100 * exp ((0 - 0) * 1) + 100 * exp (-0 * 1)) = 1.5e-5 := by norm_num
  have hv := atm_vega (up := 0.3) (by norm_num) (by norm_num) 0.1
  obtain ⟨w, hw⟩ : ∃ w, w = vegaMin 100 100 1 0 0 0.1 0.3 := ⟨_, rfl⟩
  rw [← hw] at hv
  have hq : (1.5e-5 : ℝ) / w ≤ 4e-7 := by rw [div_le_iff₀ (by linarith)]; linarith
  have hsep : ∀ x y : ℝ, 0.1 ≤ x → x ≤ y → y ≤ 0.3 → 38 * (y - x) ≤ bsCall 100 100 1 0 0 y - bsCall 100 100 1 0 0 x := by
    intro x y hx hxy hy
    have := vol_separated (S := 100) (K := 100) (t := 1) (r := 0) (b := 0) (lo := 0.1) (hi := 0.3) (x := x)
      (y := y) (by norm_num) (by norm_num) (by norm_num) (by norm_num) hxy hx hy
    rw [← hw] at this
    exact (mul_le_mul_of_nonneg_right hv (by linarith)).trans this
  have hb : ∀ z, bsPrice true 100 100 1 0 0 z = bsCall 100 100 1 0 0 z := fun z => rfl
  have s1 := hsep 0.1 0.2 (by norm_num) (by norm_num) (by norm_num)
  have s2 := hsep 0.2 0.3 (by norm_num) (by norm_num) (by norm_num)
  have s3 : bsCall 100 100 1 0 0 0.3 < bsCall 100 100 1 0 0 10 :=
    bsCall_strictMono (S := 100) (K := 100) (t := 1) (by norm_num) (by norm_num) (by norm_num) 0 0
      (by norm_num : (0:ℝ) < 0.3) (by norm_num : (0:ℝ) < 10) (by norm_num)
  have s4 := bsPrice_nonneg true 100 100 1 0 0 0.1
  rw [hb] at s4
  have hP : 1.5e-5 < bsPrice true 100 100 1 0 0 0.2 := by rw [hb]; norm_num at s1 ⊢; linarith
  have hten : bsPrice true 100 100 1 0 0 0.2 + 1.5e-5 ≤ bsPrice true 100 100 1 0 0 10 := by
    rw [hb, hb]; norm_num at s2 ⊢; norm_num at s3; linarith
  obtain ⟨σ, h', hvol, hσ⟩ := C102_bisection 100 100 1 0 0 _ (by norm_num) (by norm_num) (by norm_num) .none (.inl rfl) ha
    20 (fun _ => .fail .valueError) [a] 0 (by simp) rfl true (lo := 0.1) (up := 0.3) (s := 0.2) e.symm hw (by norm_num)
    (by linarith) (by linarith) rfl hP hten
  exact ⟨a, _, 1.5e-5, w, σ, h', ha, e.symm, hw, by linarith, by linarith, rfl, hP, hten, hvol, hσ.trans (by
    have : (10 : ℝ) / 2 ^ 20 ≤ 9.6e-6 := by norm_num
    linarith)⟩

end Verif.Props
