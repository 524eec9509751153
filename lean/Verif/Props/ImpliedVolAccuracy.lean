import Mathlib.Analysis.Complex.ExponentialBounds
import Verif.Props.ImpliedVol

/-!
# C81: sign and accuracy of the implied volatility

The solver searches all of `[-10, 10]`, although prices exist for negative volatilities too (C13). A returned volatility is
nevertheless positive and near the exact implied volatility.
-/
namespace Verif.Props
open Verif Verif.Spec Real Filter Topology Set

/-- Smallest vega for volatilities between `lo` and `hi`. -/
noncomputable def vegaMin (S K t r b lo hi : ℝ) : ℝ :=
  S * exp ((b - r) * t) * √t * φ ((|log (S / K) + b * t| / √t) / lo + √t / 2 * hi)

theorem vegaMin_pos {S K t r b lo hi : ℝ} (hS : 0 < S) (ht : 0 < t) : 0 < vegaMin S K t r b lo hi := by
  have := sqrt_pos.2 ht
  have := φ_pos ((|log (S / K) + b * t| / √t) / lo + √t / 2 * hi)
  unfold vegaMin
  positivity

theorem φ_le_of_abs {x y : ℝ} (h : |x| ≤ y) : φ y ≤ φ x := by
  unfold φ
  refine div_le_div_of_nonneg_right (exp_le_exp.2 ?_) (sqrt_nonneg _)
  have : x ^ 2 ≤ y ^ 2 := by rw [← sq_abs x]; exact pow_le_pow_left₀ (abs_nonneg x) h 2
  linarith

/-- Exact prices separate volatilities. -/
theorem vol_separated {S K t r b lo hi x y : ℝ} (hS : 0 < S) (hK : 0 < K) (ht : 0 < t) (hlo : 0 < lo) (hxy : x ≤ y)
    (hx : lo ≤ x) (hy : y ≤ hi) :
    vegaMin S K t r b lo hi * (y - x) ≤ bsCall S K t r b y - bsCall S K t r b x := by
  rcases hxy.eq_or_lt with rfl | hlt
  · simp
  have hst := sqrt_pos.2 ht
  obtain ⟨c, hc, he⟩ := exists_hasDerivAt_eq_slope (fun σ => bsCall S K t r b σ)
    (fun σ => S * exp ((b - r) * t) * φ (D1 S K t b σ) * √t) hlt
    (fun σ hσ => (deriv_call_σ hS hK ht (by linarith [hσ.1])).continuousAt.continuousWithinAt)
    (fun σ hσ => deriv_call_σ hS hK ht (by linarith [hσ.1]))
  have hc0 : 0 < c := by linarith [hc.1]
  rw [eq_div_iff (by linarith)] at he
  rw [← he]
  refine mul_le_mul_of_nonneg_right ?_ (by linarith)
  have hd : |D1 S K t b c| ≤ (|log (S / K) + b * t| / √t) / lo + √t / 2 * hi := by
    rw [D1_split (S := S) (K := K) ht b hc0]
    refine (abs_add_le _ _).trans (add_le_add ?_ ?_)
    · rw [abs_mul, abs_div, abs_of_pos hst, abs_of_pos (inv_pos.2 hc0), ← div_eq_mul_inv]
      exact div_le_div_of_nonneg_left (by positivity) hlo (by linarith [hc.1])
    · rw [abs_of_pos (by positivity)]
      exact mul_le_mul_of_nonneg_left (by linarith [hc.2]) (by positivity)
  have := φ_le_of_abs hd
  unfold vegaMin
  calc S * exp ((b - r) * t) * √t * φ _ ≤ S * exp ((b - r) * t) * √t * φ (D1 S K t b c) := by gcongr
    _ = _ := by ring

theorem bsPrice_diff (isCall : Bool) {S K t r b x y : ℝ} (ht : 0 < t) :
    bsPrice isCall S K t r b y - bsPrice isCall S K t r b x = bsCall S K t r b y - bsCall S K t r b x := by
  cases isCall
  · simp only [bsPrice, Bool.false_eq_true, if_false, bsPut_eq_call ht.le]; ring
  · simp [bsPrice]

theorem bsPrice_nonneg (isCall : Bool) (S K t r b σ : ℝ) : 0 ≤ bsPrice isCall S K t r b σ := by
  have h : ∀ f : ℝ → ℝ, (∀ z, 0 ≤ f z) → 0 ≤ exp (-r * t) * ∫ z, f z ∂(ProbabilityTheory.gaussianReal 0 1) :=
    fun f hf => mul_nonneg (exp_pos _).le (MeasureTheory.integral_nonneg hf)
  cases isCall
  · exact h _ fun z => le_max_right _ _
  · exact h _ fun z => le_max_right _ _

theorem put_negative_sigma (S K t r b σ : ℝ) :
    ∃ p c, (GBS.new S K t r b (some (-σ))).put = .ok p ∧ (GBS.new S K t r b (some σ)).call = .ok c ∧ p = -c := by
  obtain ⟨c, p, h1, h2, h3⟩ := C13_negative_sigma S K t r b (-σ)
  rw [neg_neg] at h1
  exact ⟨p, c, h2, h1, by linarith⟩

/-- **C81, sign.** If the price asked for exceeds the tolerance of the solver plus the accuracy of the normal
approximation, a nonzero volatility returned is positive, although the bracket of the solver is symmetric and prices
exist for negative volatilities. -/
theorem C81_positive (S K t r b P tol : ℝ) (hS : 0 < S) (hK : 0 < K) (ht : 0 < t)
    (hP : tol + 7.5e-8 * (S * exp ((b - r) * t) + K * exp (-r * t)) < P) (σ₀ : Val)
    (hσ₀ : σ₀ = .none ∨ ∃ s, σ₀ = .num s)
    {a : Attrs} (ha : gbsCls.construct (gbsKw S K t r b σ₀) = (a, none)) (scalar : ℝ → ℝ → Rule)
    (vec : List ℝ → Rule) (hfind : FindsRoot tol (scalar (-10) 10)) (h : Heap) (i : ℕ)
    (hi : i < h.length) (hat : h.getD i Attrs.empty = a) (call : Bool) {v : Val} {h' : Heap}
    (hres : volatility scalar vec gbsCls GBSClass.call.run GBSClass.put.run i (.num P) call h = (.ok v, h')) :
    ∃ σ, v = .num σ ∧ (σ ≠ 0 → 0 < σ) := by
  obtain ⟨σ, u, copies, hv, -, hu, he, -⟩ := C13_reprices S K t r b P tol hK.ne' σ₀ hσ₀ ha scalar vec hfind h i hi hat call hres
  refine ⟨σ, hv, fun hne => ?_⟩
  by_contra hneg
  have hlt : 0 < -σ := by
    rcases lt_or_gt_of_ne hne with h | h
    · linarith
    · exact absurd h hneg
  obtain ⟨x, hx, hxe⟩ := C02_price_accuracy ⟨hS, hK, ht, hlt⟩ r b (!call)
  have hx0 : -(7.5e-8 * (S * exp ((b - r) * t) + K * exp (-r * t))) ≤ x := by
    have := bsPrice_nonneg (!call) S K t r b (-σ)
    linarith [(abs_le.1 hxe).1]
  have hux : u = -x := by
    cases call
    · obtain ⟨p, c, h1, h2, h3⟩ := put_negative_sigma S K t r b (-σ)
      rw [neg_neg] at h1
      have e1 : u = p := by have := hu.symm.trans h1; injection this
      have e2 : x = c := by have := hx.symm.trans h2; injection this
      rw [e1, e2, h3]
    · obtain ⟨c, p, h1, h2, h3⟩ := C13_negative_sigma S K t r b (-σ)
      rw [neg_neg] at h1
      have e1 : u = c := by have := hu.symm.trans h1; injection this
      have e2 : x = p := by have := hx.symm.trans h2; injection this
      rw [e1, e2, h3]
  have := (abs_le.1 he).2
  linarith

/-- **C81, accuracy.** If the volatility returned and an exact implied volatility `s` of the price both lie in
`[lo, hi]` with `lo > 0`, they differ by at most the tolerance plus the accuracy of the normal approximation, divided by
the smallest vega on that range. -/
theorem C81_accuracy (S K t r b P tol : ℝ) (hS : 0 < S) (hK : 0 < K) (ht : 0 < t) (σ₀ : Val)
    (hσ₀ : σ₀ = .none ∨ ∃ s, σ₀ = .num s)
    {a : Attrs} (ha : gbsCls.construct (gbsKw S K t r b σ₀) = (a, none)) (scalar : ℝ → ℝ → Rule)
    (vec : List ℝ → Rule) (hfind : FindsRoot tol (scalar (-10) 10)) (h : Heap) (i : ℕ)
    (hi : i < h.length) (hat : h.getD i Attrs.empty = a) (call : Bool) {v : Val} {h' : Heap}
    (hres : volatility scalar vec gbsCls GBSClass.call.run GBSClass.put.run i (.num P) call h = (.ok v, h'))
    {lo up s : ℝ} (hlo : 0 < lo) (hs : lo ≤ s ∧ s ≤ up) (hsP : bsPrice call S K t r b s = P) :
    ∃ σ, v = .num σ ∧ (lo ≤ σ → σ ≤ up →
      |σ - s| ≤ (tol + 7.5e-8 * (S * exp ((b - r) * t) + K * exp (-r * t))) / vegaMin S K t r b lo up) := by
  obtain ⟨σ, u, copies, hv, -, -, -, hbs⟩ := C13_reprices S K t r b P tol hK.ne' σ₀ hσ₀ ha scalar vec hfind h i hi hat call hres
  refine ⟨σ, hv, fun h1 h2 => ?_⟩
  have hpos := vegaMin_pos (K := K) (r := r) (b := b) (lo := lo) (hi := up) hS ht
  have key := hbs hS hK ht (by linarith)
  rw [← hsP, bsPrice_diff call ht] at key
  rw [le_div_iff₀ hpos]
  rcases le_total σ s with hle | hle
  · have := vol_separated (r := r) (b := b) hS hK ht hlo hle h1 hs.2
    rw [abs_sub_comm, abs_of_nonneg (by linarith)]
    rw [mul_comm]
    exact this.trans ((le_abs_self _).trans key)
  · have := vol_separated (r := r) (b := b) hS hK ht hlo hle hs.1 h2
    rw [abs_of_nonneg (by linarith), mul_comm]
    rw [abs_sub_comm] at key
    exact this.trans ((le_abs_self _).trans key)

/-- Hypotheses met: an unpriced option, a solver that tries one point, and the coded price at that point, which exceeds
the tolerance. -/
theorem C81_example : ∃ a P h', gbsCls.construct (gbsKw 100 95 1 0.01 0.02 .none) = (a, none) ∧
    FindsRoot 0.1 (tryPoint 0.1 0.2) ∧
    0.1 + 7.5e-8 * (100 * exp ((0.02 - 0.01) * 1) + 95 * exp (-0.01 * 1)) < P ∧
    volatility (fun _ _ => tryPoint 0.1 0.2) (fun _ => .fail .valueError) gbsCls GBSClass.call.run
      GBSClass.put.run 0 (.num P) true [a] = (.ok (.num 0.2), h') := by
  obtain ⟨a, ha⟩ : ∃ a, gbsCls.construct (gbsKw 100 95 1 0.01 0.02 .none) = (a, none) := by
    simp [Cls.construct, Cls.init, gbsCls, gbsKw, bindArgs, req, dflt, optionInit, assignParams,
      GBSClass.initD, exec, Expr.eval, isNoneArg, Attrs.set, List.lookup]
  obtain ⟨u, hu⟩ := gbs_call_ok 100 95 1 0.01 0.02 0.2
  have hc : gbsCls ∈ classes := by simp [classes]
  have hd := gbs_params_of ha
  obtain ⟨d, hd', -, hch⟩ := C15_solver_choice hc (fun _ _ => tryPoint 0.1 0.2)
    (fun _ => .fail .valueError) GBSClass.call.run GBSClass.put.run ha [] [a]
    0 rfl (.num u) true
  rw [show gbsCls.runCatch [] a = a from rfl, hd] at hd'
  cases hd'
  have hR : ∀ m ∈ GBSClass.methods, gbsCls.Respects m.run := fun m hm =>
    (C10_prices_respect hc).1 m (by simpa [methodsOf, gbsCls] using hm)
  have hcl := hR GBSClass.call (by simp [GBSClass.methods])
  have hpt := hR GBSClass.put (by simp [GBSClass.methods])
  obtain ⟨copies, hrun⟩ := rule_harmless (a := a) (i := 0)
    (fun h' x _ ha' => volFunc_harmless hc hcl hpt true ha' hd (.num u) x) (tryPoint 0.1 0.2) [a]
    (by simp) rfl
  refine ⟨a, u, _, ha, C13_solver_example.1 0.1 0.2, ?_, (hch (by simp [gbsKw])).trans (hrun.trans (congrArg (·, _) ?_))⟩
  · obtain ⟨x, hx, he⟩ := C02_price_accuracy (S := 100) (K := 95) (t := 1) (σ := 0.2)
      ⟨by norm_num, by norm_num, by norm_num, by norm_num⟩ 0.01 0.02 true
    have hxu : x = u := by have := hx.symm.trans hu; injection this
    subst hxu
    have hb := bsPut_eq_call (S := 100) (K := 95) (t := 1) (r := 0.01) (b := 0.02) (σ := 0.2) (by norm_num)
    have hp := bsPrice_nonneg false 100 95 1 0.01 0.02 0.2
    simp only [bsPrice, Bool.false_eq_true, if_false, if_true] at hp he
    have e1 : (1:ℝ) ≤ exp ((0.02 - 0.01) * 1) := by rw [one_le_exp_iff]; norm_num
    have e2 : exp (-0.01 * 1) ≤ (1:ℝ) := by rw [exp_le_one_iff]; norm_num
    have e3 : exp ((0.02 - 0.01) * 1) ≤ 3 := by
      have := exp_one_lt_three
      refine le_trans (exp_le_exp.2 (by norm_num : ((0.02:ℝ) - 0.01) * 1 ≤ 1)) (by linarith)
    have := (abs_le.1 he).1
    generalize exp ((0.02 - 0.01) * 1) = A at *
    generalize exp (-0.01 * 1) = B at *
    generalize bsCall 100 95 1 0.01 0.02 0.2 = C at *
    clear hch hrun hd ha hx hu
    norm_num at *
    linarith
  · have hf := gbs_freshSigma 100 95 1 0.01 0.02 .none 0.2 (by norm_num) true
    simp only [if_true] at hf
    have hu' : (GBS.new 100 95 1 0.01 0.02 (some 0.2)).price true = .ok u := hu
    have h01 : (0:ℝ) ≤ 0.1 := by norm_num
    simp [tryPoint, Rule.runPure, hf, hu', Except.map, ok_bind, Val.map₂, h01]

end Verif.Props
