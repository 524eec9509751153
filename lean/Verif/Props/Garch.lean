import Verif.Lemmas.Garch
import Mathlib.Probability.Distributions.Gaussian.Real
import Mathlib.Analysis.Real.Sqrt

/-!
C51–C55, C65: Heston–Nandi simulation, filter, likelihood and fit.
-/
namespace Verif.Props
open Verif Verif.Spec Verif.HN Real ProbabilityTheory

/-- Parameters of a stationary series. -/
structure ValidSeries (p : HN.Par) : Prop where
  omega : 0 < p.omega
  alpha : 0 ≤ p.alpha
  beta : 0 ≤ p.beta
  stationary : p.beta + p.alpha * p.gamma ^ 2 < 1

theorem getD_tab {L i : ℕ} (f : ℕ → ℝ) (hi : i < L) : (tab L f).getD i 0 = f i := by
  simp only [List.getD, getElem?_tab, if_pos hi, Option.getD_some]

theorem getD_drop (l : List ℝ) (k i : ℕ) : (l.drop k).getD i 0 = l.getD (k + i) 0 := by
  simp [List.getD, List.getElem?_drop]

/-- What the filter returns on a non-empty series. -/
theorem filter_ok (p : HN.Par) (rf : ℝ) {x : List ℝ} (hx : 0 < x.length) :
    filter p rf x = .ok
      (tab x.length (FH p rf ((p.omega + p.alpha) / (1 - p.alpha * p.gamma * p.gamma - p.beta)) (x.getD · 0)),
        tab x.length (FZ p rf ((p.omega + p.alpha) / (1 - p.alpha * p.gamma * p.gamma - p.beta)) (x.getD · 0))) := by
  have := filter_eq p rf x
  simp only [if_pos hx] at this
  exact this

theorem hnVariance_eq (p : HN.Par) :
    (p.omega + p.alpha) / (1 - p.alpha * p.gamma * p.gamma - p.beta)
      = hnVariance p.omega p.alpha p.beta p.gamma := by
  rw [hnVariance]
  congr 1
  ring

theorem ValidSeries.den {p : HN.Par} (hp : ValidSeries p) : 1 - p.alpha * p.gamma * p.gamma - p.beta ≠ 0 := by
  have := hp.stationary
  nlinarith

theorem ValidSeries.le_variance {p : HN.Par} (hp : ValidSeries p) :
    p.omega ≤ hnVariance p.omega p.alpha p.beta p.gamma := by
  have h1 := hp.stationary
  have hα := hp.alpha
  have hβ := hp.beta
  have hω := hp.omega
  rw [hnVariance, le_div_iff₀ (by linarith)]
  nlinarith [mul_nonneg hα (sq_nonneg p.gamma), mul_nonneg hω.le hβ, mul_nonneg hω.le (mul_nonneg hα (sq_nonneg p.gamma))]

/-- The innovations are given, or drawn. -/
def innovations (n : ℕ) (inno : Option (List ℝ)) (draw : ℕ → ℕ → List ℝ) : List ℝ := inno.getD (draw 0 n)

theorem simZ_zero (n : ℕ) (inno : Option (List ℝ)) (draw : ℕ → ℕ → List ℝ) :
    simZ n 0 inno none draw = innovations n inno draw := by
  simp [simZ, innovations]

theorem sim_zero {p : HN.Par} (hp : ValidSeries p) (rf : ℝ) {n : ℕ} (hn : 0 < n) (inno : Option (List ℝ))
    (draw : ℕ → ℕ → List ℝ) (hZ : (innovations n inno draw).length = n) :
    sim p rf n 0 inno none draw = .ok (tab n (fun i => hnObs rf p.lamb
      (hnVar p.omega p.alpha p.beta p.gamma (hnVariance p.omega p.alpha p.beta p.gamma)
        ((innovations n inno draw).getD · 0) i) ((innovations n inno draw).getD i 0))) := by
  rw [sim_eq_run _ _ _ _ _ _ _ hp.den, simRun_eq, simZ_zero, hZ, hnVariance_eq, if_pos ⟨hn, by omega⟩, List.drop_zero]
  congr 1
  exact tab_congr fun i hi => mix_lt (by omega) _ _

/-- **C51**, series without warm-up. For all stationary parameters, lengths and innovations: the simulation returns a
series of that length, and filtering it with the same parameters returns exactly the innovations and the variances
that generated the series.

Full claim: for every series produced by `hngarch_sim`. Missing, because false: series with a discarded warm-up, see
`C51_warmup_fails` (the filter restarts at the stationary variance). -/
theorem C51_roundtrip_partial {p : HN.Par} (hp : ValidSeries p) (rf : ℝ) {n : ℕ} (hn : 0 < n) (inno : Option (List ℝ))
    (draw : ℕ → ℕ → List ℝ) (hZ : (innovations n inno draw).length = n) :
    ∃ x h : List ℝ, sim p rf n 0 inno none draw = .ok x ∧ x.length = n ∧
      filter p rf x = .ok (h, innovations n inno draw) ∧ h.length = n ∧
      h.getD 0 0 = hnVariance p.omega p.alpha p.beta p.gamma ∧
      (∀ i, i + 1 < n → h.getD (i + 1) 0
        = hnNext p.omega p.alpha p.beta p.gamma (h.getD i 0) ((innovations n inno draw).getD i 0)) ∧
      (∀ i < n, x.getD i 0 = hnObs rf p.lamb (h.getD i 0) ((innovations n inno draw).getD i 0)) := by
  have hs := sim_zero hp rf hn inno draw hZ
  set Z := innovations n inno draw with hZd
  set z : ℕ → ℝ := (Z.getD · 0) with hz
  set σ := hnVariance p.omega p.alpha p.beta p.gamma with hσ
  set hv := hnVar p.omega p.alpha p.beta p.gamma σ z with hhv
  have hget : ∀ i < n, (tab n (fun i => hnObs rf p.lamb (hv i) (z i))).getD i 0 = hnObs rf p.lamb (hv i) (z i) := by
    intro i hi
    exact getD_tab _ hi
  have hf : ∀ i ≤ n, hnFilt rf p.lamb p.omega p.alpha p.beta p.gamma σ
      ((tab n (fun i => hnObs rf p.lamb (hv i) (z i))).getD · 0) i = hv i := by
    intro i hi
    exact hnFilt_hnObs hp.omega hp.alpha hp.beta hp.le_variance z _ n hget i hi
  have hpos : ∀ i, 0 < hv i := fun i => hp.omega.trans_le (le_hnVar hp.omega.le hp.alpha hp.beta hp.le_variance z i)
  refine ⟨_, tab n hv, hs, length_tab _ _, ?_, length_tab _ _, ?_, ?_, ?_⟩
  · rw [filter_eq, length_tab, if_pos hn, hnVariance_eq]
    congr 2
    · exact tab_congr fun i hi => hf i hi.le
    · conv_rhs => rw [eq_tab Z, hZ]
      refine tab_congr fun i hi => ?_
      simp only [FZ, FH]
      rw [hf i hi.le, hget i hi, hnInno_hnObs (hpos i)]
  · rw [getD_tab _ hn]; rfl
  · intro i hi
    rw [getD_tab _ hi, getD_tab _ (by omega)]
    rfl
  · intro i hi
    rw [getD_tab _ hi, getD_tab _ hi]

/-- **C51**, the other way: simulating with the innovations found by the filter returns the series. -/
theorem C51_resimulate {p : HN.Par} (hp : ValidSeries p) (rf : ℝ) {x : List ℝ} (hx : x ≠ [])
    (draw : ℕ → ℕ → List ℝ) :
    ∃ h z, filter p rf x = .ok (h, z) ∧ z.length = x.length ∧ sim p rf x.length 0 (some z) none draw = .ok x := by
  have hL : 0 < x.length := List.length_pos_iff.2 hx
  have hf := filter_ok p rf hL
  rw [hnVariance_eq] at hf
  refine ⟨_, _, hf, length_tab _ _, ?_⟩
  set σ := hnVariance p.omega p.alpha p.beta p.gamma with hσ
  set z := FZ p rf σ (x.getD · 0) with hz
  rw [sim_zero hp rf hL (some (tab x.length z)) draw (by simp [innovations])]
  congr 1
  conv_rhs => rw [eq_tab x]
  refine tab_congr fun i hi => ?_
  have hg : ∀ i < x.length, (innovations x.length (some (tab x.length z)) draw).getD i 0 = z i := by
    intro i hi
    exact getD_tab _ hi
  rw [hg i hi, hnVar_hnInno (r := rf) (l := p.lamb) (x.getD · 0) _ x.length (fun k hk => by rw [hg k hk]) i hi.le]
  exact hnObs_hnInno (hp.omega.trans_le (le_hnFilt hp.omega.le hp.alpha hp.beta hp.le_variance _ i))

/-- **C51.** The same for the likelihood function, which takes transformed parameters. -/
theorem C51_likelihood {p : HN.Par} (hp : ValidSeries p) (hω : p.omega < 1) (hα : 0 < p.alpha) (hα' : p.alpha < 1)
    (hβ : 0 < p.beta) (rf : ℝ) {n : ℕ} (hn : 0 < n) (inno : Option (List ℝ)) (draw : ℕ → ℕ → List ℝ)
    (hZ : (innovations n inno draw).length = n) (symmetric : Bool) :
    ∃ x l h, sim p rf n 0 inno none draw = .ok x ∧
      llh ⟨p.lamb, -log ((1 - p.omega) / p.omega), -log ((1 - p.alpha) / p.alpha), -log ((1 - p.beta) / p.beta),
        p.gamma⟩ symmetric rf x = .ok (l, innovations n inno draw, h) := by
  obtain ⟨x, h, hs, -, hf, -⟩ := C51_roundtrip_partial hp rf hn inno draw hZ
  have hβ' : p.beta < 1 := by
    have := hp.stationary
    nlinarith [mul_nonneg hp.alpha (sq_nonneg p.gamma)]
  have hpar : filterPar ⟨p.lamb, -log ((1 - p.omega) / p.omega), -log ((1 - p.alpha) / p.alpha),
      -log ((1 - p.beta) / p.beta), p.gamma⟩ symmetric = p := by
    have e : ∀ y : ℝ, -log ((1 - y) / y) = logit y := fun y => rfl
    simp only [filterPar, e]
    rw [sigmoid_logit hp.omega hω, sigmoid_logit hα hα', sigmoid_logit hβ hβ']
    cases symmetric <;> simp [invert]
  exact ⟨x, _, h, hs, by simp only [llh, hpar, hf, bind, Except.bind, pure, Except.pure]; rfl⟩

/-- **C51.** After a discarded warm-up the filter does not recover the innovations: with `h = 1/2 + z²/2` and
innovations `0, 1`, the second observation is filtered with variance `1` instead of `1/2`. -/
theorem C51_warmup_fails (draw : ℕ → ℕ → List ℝ) :
    ∃ p, ValidSeries p ∧ ∃ x h z, sim p 0 1 1 (some [1]) (some [0]) draw = .ok x ∧ filter p 0 x = .ok (h, z) ∧ z ≠ [1] := by
  refine ⟨⟨0, 1 / 2, 1 / 2, 0, 0⟩, ⟨by norm_num, by norm_num, by norm_num, by norm_num⟩,
    [√(1 / 2)], [1], [√(1 / 2)], ?_, ?_, ?_⟩
  · rw [sim_eq_run _ _ _ _ _ _ _ (by norm_num), simRun_eq]
    simp [simZ, tab, mix, hnObs, hnVar, hnNext, List.range_succ]
  · rw [filter_eq]
    simp [tab, hnFilt, hnInno, List.range_succ]
    norm_num
  · intro h
    have h1 : √(1 / 2 : ℝ) = 1 := (List.cons.inj h).1
    have h2 := Real.sq_sqrt (show (0 : ℝ) ≤ 1 / 2 by norm_num)
    rw [h1] at h2
    norm_num at h2

/-! ### Variances -/

/-- **C52.** Filter: for every non-empty series all variances are at least `omega > 0`. -/
theorem C52_filter {p : HN.Par} (hp : ValidSeries p) (rf : ℝ) {x : List ℝ} (hx : x ≠ []) :
    ∃ h z, filter p rf x = .ok (h, z) ∧ h.length = x.length ∧ z.length = x.length ∧ ∀ v ∈ h, p.omega ≤ v := by
  have hL : 0 < x.length := List.length_pos_iff.2 hx
  have hf := filter_ok p rf hL
  rw [hnVariance_eq] at hf
  refine ⟨_, _, hf, length_tab _ _, length_tab _ _, ?_⟩
  intro v hv
  obtain ⟨i, -, rfl⟩ := List.mem_map.1 hv
  exact le_hnFilt hp.omega.le hp.alpha hp.beta hp.le_variance _ i

/-- **C52.** Simulation, with any warm-up: the points are generated by variances that are all at least `omega > 0`. -/
theorem C52_sim {p : HN.Par} (hp : ValidSeries p) (rf : ℝ) {n : ℕ} {inno innoStart : List ℝ}
    (hn : 0 < innoStart.length + inno.length) (hi : inno.length = n) (draw : ℕ → ℕ → List ℝ) :
    ∃ x h : List ℝ, sim p rf n innoStart.length (some inno) (some innoStart) draw = .ok x ∧
      h.length = innoStart.length + n ∧ (∀ v ∈ h, p.omega ≤ v) ∧
      h.getD 0 0 = hnVariance p.omega p.alpha p.beta p.gamma ∧
      (∀ i, i + 1 < innoStart.length + n → h.getD (i + 1) 0
        = hnNext p.omega p.alpha p.beta p.gamma (h.getD i 0) ((innoStart ++ inno).getD i 0)) ∧
      x.length = n ∧
      ∀ i < n, x.getD i 0 = hnObs rf p.lamb (h.getD (innoStart.length + i) 0)
        ((innoStart ++ inno).getD (innoStart.length + i) 0) := by
  have hs := sim_eq_run p rf n innoStart.length (some inno) (some innoStart) draw hp.den
  have hZ : simZ n innoStart.length (some inno) (some innoStart) draw = innoStart ++ inno := by simp [simZ]
  rw [hZ, simRun_eq, hnVariance_eq, if_pos (by simp only [List.length_append]; omega)] at hs
  set Z := innoStart ++ inno with hZd
  set σ := hnVariance p.omega p.alpha p.beta p.gamma with hσ
  set z : ℕ → ℝ := (Z.getD · 0) with hz
  have hlen : Z.length = innoStart.length + n := by rw [hZd, List.length_append, hi]
  refine ⟨_, tab Z.length (HN.H p σ z), hs, by rw [length_tab, hlen], ?_, ?_, ?_, ?_, ?_⟩
  · intro v hv
    obtain ⟨i, -, rfl⟩ := List.mem_map.1 hv
    exact le_hnVar hp.omega.le hp.alpha hp.beta hp.le_variance _ i
  · rw [getD_tab _ (by omega)]; rfl
  · intro i hi
    rw [getD_tab _ (by omega), getD_tab _ (by omega)]
    rfl
  · rw [List.length_drop, length_tab, hlen]; omega
  · intro i hi
    rw [getD_drop, getD_tab _ (by omega), getD_tab _ (by omega), mix_lt (by omega)]

/-- **C52.** Stationarity is needed, and nothing in the transformation of the parameters provides it: otherwise the
first variance is negative. -/
theorem C52_nonstationary {p : HN.Par} (hω : 0 < p.omega) (hα : 0 ≤ p.alpha)
    (hns : 1 < p.beta + p.alpha * p.gamma ^ 2) (rf : ℝ) {x : List ℝ} (hx : x ≠ []) :
    ∃ h z, filter p rf x = .ok (h, z) ∧ h.getD 0 0 < 0 := by
  have hL : 0 < x.length := List.length_pos_iff.2 hx
  have hf := filter_ok p rf hL
  rw [hnVariance_eq] at hf
  refine ⟨_, _, hf, ?_⟩
  rw [getD_tab _ hL]
  simp only [hnFilt, hnVariance]
  exact div_neg_of_pos_of_neg (by linarith) (by linarith)

/-! ### `symmetric` -/

/-- **C53.** The flag has no effect on the likelihood: for all parameters and series, `symmetric=True` and
`symmetric=False` give the same value, variances and innovations. -/
theorem C53_flag_ignored (x0 : HN.Par) (rfr : ℝ) (x : List ℝ) : llh x0 true rfr x = llh x0 false rfr x := by
  simp [llh, filterPar, invert]

theorem llh_single (g : ℝ) (symmetric : Bool) : llh ⟨0, 0, 0, 0, g⟩ symmetric 0 [0]
    = .ok (-log (1 / √(2 * π) / √(1 / (1 / 2 - 1 / 2 * g * g))), [0], [1 / (1 / 2 - 1 / 2 * g * g)]) := by
  have h2 : sigmoid 0 = 1 / 2 := by simp [sigmoid]; norm_num
  have hp : filterPar ⟨0, 0, 0, 0, g⟩ symmetric = ⟨0, 1 / 2, 1 / 2, 1 / 2, g⟩ := by
    cases symmetric <;> simp [filterPar, invert, h2]
  have e : (1 / 2 + 1 / 2 : ℝ) / (1 - 1 / 2 * g * g - 1 / 2) = 1 / (1 / 2 - 1 / 2 * g * g) := by
    congr 1 <;> ring
  simp only [llh, hp, filter_eq, bind, Except.bind, pure, Except.pure]
  simp only [e]
  simp [tab, hnFilt, hnInno, List.range_succ, pdf]

/-- **C53 fails.** With `symmetric=True` the likelihood depends on `gamma`: same series, same other (stationary)
parameters, different values. -/
theorem C53_fails : ∃ (x0 x1 : HN.Par) (x : List ℝ) (l0 l1 : ℝ) (z0 z1 h0 h1 : List ℝ),
    x1 = { x0 with gamma := 1 / 2 } ∧ llh x0 true 0 x = .ok (l0, z0, h0) ∧ llh x1 true 0 x = .ok (l1, z1, h1) ∧
      l0 ≠ l1 := by
  refine ⟨⟨0, 0, 0, 0, 0⟩, ⟨0, 0, 0, 0, 1 / 2⟩, [0], _, _, _, _, _, _, rfl, llh_single 0 true, llh_single (1 / 2) true, ?_⟩
  intro h
  have hpi : 0 < √(2 * π) := sqrt_pos.2 (by positivity)
  have h1 := Real.log_injOn_pos (by simp only [Set.mem_Ioi]; positivity) (by
    simp only [Set.mem_Ioi]
    have : (0 : ℝ) < √(1 / (1 / 2 - 1 / 2 * (1 / 2) * (1 / 2))) := sqrt_pos.2 (by norm_num)
    positivity) (neg_injective h)
  have ha : (0 : ℝ) < √(1 / (1 / 2 - 1 / 2 * 0 * 0)) := sqrt_pos.2 (by norm_num)
  have hb : (0 : ℝ) < √(1 / (1 / 2 - 1 / 2 * (1 / 2) * (1 / 2))) := sqrt_pos.2 (by norm_num)
  have h2 : √(1 / (1 / 2 - 1 / 2 * 0 * 0 : ℝ)) = √(1 / (1 / 2 - 1 / 2 * (1 / 2) * (1 / 2))) := by
    have hne : (1 / √(2 * π)) ≠ 0 := by positivity
    field_simp at h1
    linarith
  have h3 := (Real.sqrt_inj (by norm_num) (by norm_num)).1 h2
  norm_num at h3

/-- Reading off a successful fit. -/
theorem fit_ok {minimize : (HN.Par → Except PyErr ℝ) → HN.Par → ℝ × HN.Par} {x : List ℝ} {lamb : ℝ}
    {omega alpha : Option ℝ} {beta gamma rf var : ℝ} {symmetric : Bool} {f : Fit}
    (hf : fit minimize x lamb omega alpha beta gamma rf var symmetric = .ok f) :
    ∃ v res, llh (start lamb omega alpha beta gamma var) symmetric rf x = .ok v ∧ f.value = v.1 ∧
      minimize (fun q => (llh q symmetric rf x).map (·.1)) (start lamb omega alpha beta gamma var) = res ∧
      f.minimum = -res.1 + x.length * √(2 * π) ∧
      (∃ l, llh res.2 symmetric rf x = .ok (l, f.z, f.h)) ∧
      f.estimate = ⟨res.2.lamb, sigmoid res.2.omega, sigmoid res.2.alpha, sigmoid res.2.beta,
        if symmetric then 0 else res.2.gamma⟩ ∧ f.model = f.estimate ∧
      f.persistence = f.estimate.beta + f.estimate.alpha * f.estimate.gamma * f.estimate.gamma ∧
      f.sigma2 = (f.estimate.omega + f.estimate.alpha) / (1 - f.persistence) := by
  simp only [fit, bind, Except.bind, pure, Except.pure] at hf
  split at hf
  · cases hf
  rename_i v hv
  split at hf
  · cases hf
  rename_i w hw
  cases hf
  exact ⟨v, _, hv, rfl, rfl, rfl, ⟨w.1, hw⟩, rfl, rfl, rfl, rfl⟩

/-- **C53**, what holds: when the flag is `False`, or when the optimizer happens to leave `gamma` at zero, the
reported model is the one whose variances and innovations are returned.

Full claim: also with `symmetric=True`, for every optimizer outcome. Missing, because false: see `C53_report_fails`. -/
theorem C53_report_partial {minimize : (HN.Par → Except PyErr ℝ) → HN.Par → ℝ × HN.Par} {x : List ℝ} {lamb : ℝ}
    {omega alpha : Option ℝ} {beta gamma rf var : ℝ} {symmetric : Bool} {f : Fit}
    (hf : fit minimize x lamb omega alpha beta gamma rf var symmetric = .ok f)
    (h : symmetric = false ∨ (minimize (fun q => (llh q symmetric rf x).map (·.1))
      (start lamb omega alpha beta gamma var)).2.gamma = 0) :
    filter f.model rf x = .ok (f.h, f.z) := by
  obtain ⟨v, res, -, -, hres, -, ⟨l, hl⟩, he, hm, -⟩ := fit_ok hf
  rw [hres] at h
  have hpar : filterPar res.2 symmetric = f.model := by
    rw [hm, he, filterPar]
    rcases h with rfl | h
    · simp [invert]
    · cases symmetric <;> simp [invert, h]
  simp only [llh, hpar, bind, Except.bind, pure, Except.pure] at hl
  split at hl
  · cases hl
  rename_i hz heq
  simp only [Except.ok.injEq, Prod.mk.injEq] at hl
  rw [heq, ← hl.2.1, ← hl.2.2]

/-- **C55.** Every non-empty series gives a result (no exception), whatever the optimizer returns. -/
theorem C55_returns (minimize : (HN.Par → Except PyErr ℝ) → HN.Par → ℝ × HN.Par) {x : List ℝ} (hx : x ≠ []) (lamb : ℝ)
    (omega alpha : Option ℝ) (beta gamma rf var : ℝ) (symmetric : Bool) :
    ∃ f, fit minimize x lamb omega alpha beta gamma rf var symmetric = .ok f := by
  have hL : 0 < x.length := List.length_pos_iff.2 hx
  have h : ∀ q, ∃ v, llh q symmetric rf x = .ok v := by
    intro q
    simp only [llh, filter_eq, if_pos hL, bind, Except.bind, pure, Except.pure]
    exact ⟨_, rfl⟩
  obtain ⟨v, hv⟩ := h (start lamb omega alpha beta gamma var)
  obtain ⟨w, hw⟩ := h (minimize (fun q => (llh q symmetric rf x).map (·.1)) (start lamb omega alpha beta gamma var)).2
  simp only [fit, hv, hw, bind, Except.bind, pure, Except.pure]
  exact ⟨_, rfl⟩

/-- **C53 fails** for the report: with `symmetric=True` the fit reports `gamma = 0`, but the returned variances were
computed with the optimizer's `gamma`; they are not those of the reported model. -/
theorem C53_report_fails : ∃ minimize f h z, fit minimize [0] 0 (some (1 / 2)) (some (1 / 2)) (1 / 2) 0 0 0 true = .ok f ∧
    f.model.gamma = 0 ∧ filter f.model 0 [0] = .ok (h, z) ∧ h ≠ f.h := by
  have hl : logit (1 / 2) = 0 := by rw [logit]; norm_num
  have h2 : sigmoid 0 = 1 / 2 := by simp [sigmoid]; norm_num
  have hst : start 0 (some (1 / 2)) (some (1 / 2)) (1 / 2) 0 0 = ⟨0, 0, 0, 0, 0⟩ := by
    simp only [start, Option.getD_some, hl]
  obtain ⟨f, hf⟩ := C55_returns (fun _ _ => (0, ⟨0, 0, 0, 0, 1 / 2⟩)) (x := [0]) (by simp) 0 (some (1 / 2)) (some (1 / 2))
    (1 / 2) 0 0 0 true
  obtain ⟨v, res, -, -, rfl, -, ⟨l, hl⟩, he, hm, -⟩ := fit_ok hf
  rw [llh_single] at hl
  simp only [Except.ok.injEq, Prod.mk.injEq] at hl
  simp only [h2, if_true] at he
  refine ⟨_, f, [2], [0], hf, by rw [hm, he], ?_, ?_⟩
  · rw [hm, he, filter_eq]
    simp [tab, hnFilt, hnInno, List.range_succ]
    norm_num
  · rw [← hl.2.2]
    norm_num

/-! ### Shape of the simulated series -/

/-- **C54**, innovation arrays of the requested lengths (given or drawn). The result has `n` entries.

Full claim: for all innovation arrays. Missing, because false: see `C54_longer` and `C54_start_ignored`. -/
theorem C54_length_partial {p : HN.Par} (hden : 1 - p.alpha * p.gamma * p.gamma - p.beta ≠ 0) (rf : ℝ) {n nStart : ℕ}
    (hn : 0 < nStart + n) (inno innoStart : Option (List ℝ)) (draw : ℕ → ℕ → List ℝ)
    (hdraw : ∀ c k, (draw c k).length = k) (hi : ∀ l, inno = some l → l.length = n)
    (hs : ∀ l, innoStart = some l → l.length = nStart) :
    ∃ x, sim p rf n nStart inno innoStart draw = .ok x ∧ x.length = n := by
  have hZ : (simZ n nStart inno innoStart draw).length = nStart + n := by
    have h1 : (inno.getD (draw 0 n)).length = n := by
      cases inno with
      | none => simpa using hdraw 0 n
      | some l => simpa using hi l rfl
    cases innoStart with
    | none =>
      rcases Nat.eq_zero_or_pos nStart with rfl | h0
      · simp [simZ, h1]
      · simp [simZ, h0, h1, hdraw]
    | some l => simp [simZ, h1, hs l rfl]
  rw [sim_eq_run _ _ _ _ _ _ _ hden, simRun_eq, if_pos ⟨by omega, by omega⟩]
  refine ⟨_, rfl, ?_⟩
  rw [List.length_drop, length_tab, hZ]
  omega

/-- **C54.** Causality: if two innovation arrays agree up to index `nStart + i`, the two series agree at `i`. -/
theorem C54_causal {p : HN.Par} (hden : 1 - p.alpha * p.gamma * p.gamma - p.beta ≠ 0) (rf : ℝ) {n : ℕ}
    {s s' l l' : List ℝ} (hs : s'.length = s.length) (hl : l.length = n) (hl' : l'.length = n)
    (draw draw' : ℕ → ℕ → List ℝ) {i : ℕ} (hi : i < n)
    (heq : (s ++ l).take (s.length + i + 1) = (s' ++ l').take (s.length + i + 1)) :
    ∃ x x', sim p rf n s.length (some l) (some s) draw = .ok x ∧
      sim p rf n s.length (some l') (some s') draw' = .ok x' ∧ x[i]? = x'[i]? ∧ x[i]?.isSome := by
  have hg : ∀ k ≤ s.length + i, (s ++ l).getD k 0 = (s' ++ l').getD k 0 := by
    intro k hk
    have h1 := congrArg (fun l => l[k]?) heq
    simp only [List.getElem?_take] at h1
    rw [if_pos (by omega), if_pos (by omega)] at h1
    simp [List.getD, h1]
  have e1 := sim_eq_run p rf n s.length (some l) (some s) draw hden
  have e2 := sim_eq_run p rf n s.length (some l') (some s') draw' hden
  rw [show simZ n s.length (some l) (some s) draw = s ++ l by simp [simZ], simRun_eq,
    if_pos (by simp only [List.length_append]; omega)] at e1
  rw [show simZ n s.length (some l') (some s') draw' = s' ++ l' by simp [simZ], simRun_eq,
    if_pos (by simp only [List.length_append]; omega)] at e2
  have hA : (s ++ l).length = s.length + n := by simp [hl]
  have hB : (s' ++ l').length = s.length + n := by simp [hl', hs]
  rw [hA] at e1
  rw [hB] at e2
  refine ⟨_, _, e1, e2, ?_, ?_⟩
  · rw [List.getElem?_drop, List.getElem?_drop, getElem?_tab, getElem?_tab, if_pos (by omega), if_pos (by omega),
      mix_lt (by omega), mix_lt (by omega)]
    simp only [X, H]
    rw [hg _ le_rfl, hnVar_congr _ fun k hk => hg k (by omega)]
  · rw [List.getElem?_drop, getElem?_tab, if_pos (by omega)]
    rfl

/-- **C54 fails** for longer innovation arrays: for all parameters, an `inno` with `n < len(inno)` gives `len(inno)`
entries, and those from `n` on are the raw innovations. -/
theorem C54_longer {p : HN.Par} (hden : 1 - p.alpha * p.gamma * p.gamma - p.beta ≠ 0) (rf : ℝ) {n : ℕ} (hn : 0 < n)
    {l : List ℝ} (hl : n < l.length) (draw : ℕ → ℕ → List ℝ) :
    ∃ x, sim p rf n 0 (some l) none draw = .ok x ∧ x.length = l.length ∧ x.length ≠ n ∧ x.drop n = l.drop n := by
  have e1 := sim_eq_run p rf n 0 (some l) none draw hden
  rw [show simZ n 0 (some l) none draw = l by simp [simZ], simRun_eq, if_pos ⟨by omega, by omega⟩, List.drop_zero] at e1
  refine ⟨_, e1, length_tab _ _, by rw [length_tab]; omega, ?_⟩
  apply List.ext_getElem?
  intro i
  rw [List.getElem?_drop, List.getElem?_drop, getElem?_tab]
  split
  · rename_i h
    rw [mix, if_neg (by omega)]
    simp [List.getD, h]
  · rename_i h
    exact (List.getElem?_eq_none (by omega)).symm

/-- **C54 fails** for start innovations with `n_start = 0` (the default): they are used as the first points of the
series, and the last `len(inno_start)` entries are raw innovations. -/
theorem C54_start_ignored {p : HN.Par} (hden : 1 - p.alpha * p.gamma * p.gamma - p.beta ≠ 0) (rf : ℝ)
    {l s : List ℝ} (hl : 0 < l.length) (hs : 0 < s.length) (draw : ℕ → ℕ → List ℝ) :
    ∃ x, sim p rf l.length 0 (some l) (some s) draw = .ok x ∧ x.length = s.length + l.length ∧
      x.drop l.length = (s ++ l).drop l.length := by
  have e1 := sim_eq_run p rf l.length 0 (some l) (some s) draw hden
  rw [show simZ l.length 0 (some l) (some s) draw = s ++ l by simp [simZ], simRun_eq,
    if_pos ⟨by simp only [List.length_append]; omega, by simp only [List.length_append]; omega⟩, List.drop_zero] at e1
  refine ⟨_, e1, by rw [length_tab, List.length_append], ?_⟩
  apply List.ext_getElem?
  intro i
  rw [List.getElem?_drop, List.getElem?_drop, getElem?_tab]
  split
  · rename_i h
    rw [mix, if_neg (by omega), List.getElem?_eq_getElem h]
    simp only [List.getD, List.getElem?_eq_getElem h, Option.getD_some]
  · rename_i h
    exact (List.getElem?_eq_none (by omega)).symm

/-- **C54.** Shorter arrays raise `IndexError`. -/
theorem C54_shorter {p : HN.Par} (hden : 1 - p.alpha * p.gamma * p.gamma - p.beta ≠ 0) (rf : ℝ) {n nStart : ℕ}
    {l s : List ℝ} (h : s.length + l.length < nStart + n) (draw : ℕ → ℕ → List ℝ) :
    sim p rf n nStart (some l) (some s) draw = .error .indexError := by
  rw [sim_eq_run _ _ _ _ _ _ _ hden, show simZ n nStart (some l) (some s) draw = s ++ l by simp [simZ], simRun_eq,
    if_neg (by simp only [List.length_append]; omega)]

/-! ### Fit -/

/-- **C55.** Whatever the optimizer returns: reported `omega, alpha, beta` are in `(0,1)`, `model` and `estimate`
agree, and `sigma2` is the stationary variance `(omega + alpha)/(1 - persistence)` of the reported model. -/
theorem C55_report {minimize : (HN.Par → Except PyErr ℝ) → HN.Par → ℝ × HN.Par} {x : List ℝ} {lamb : ℝ}
    {omega alpha : Option ℝ} {beta gamma rf var : ℝ} {symmetric : Bool} {f : Fit}
    (hf : fit minimize x lamb omega alpha beta gamma rf var symmetric = .ok f) :
    (0 < f.estimate.omega ∧ f.estimate.omega < 1) ∧ (0 < f.estimate.alpha ∧ f.estimate.alpha < 1) ∧
    (0 < f.estimate.beta ∧ f.estimate.beta < 1) ∧ f.model = f.estimate ∧
    f.persistence = f.model.beta + f.model.alpha * f.model.gamma ^ 2 ∧
    f.sigma2 = (f.model.omega + f.model.alpha) / (1 - f.persistence) ∧
    f.sigma2 = hnVariance f.model.omega f.model.alpha f.model.beta f.model.gamma := by
  obtain ⟨v, res, -, -, -, -, -, he, hm, hp, hs⟩ := fit_ok hf
  have hp' : f.persistence = f.model.beta + f.model.alpha * f.model.gamma ^ 2 := by rw [hp, hm]; ring
  refine ⟨?_, ?_, ?_, hm, hp', by rw [hs, hm], ?_⟩
  · rw [he]; exact sigmoid_mem _
  · rw [he]; exact sigmoid_mem _
  · rw [he]; exact sigmoid_mem _
  · rw [hs, hp', hnVariance, hm]
    congr 1
    ring

/-- **C55.** Start values in `(0,1)` are mapped back to themselves: the start vector is filtered with the parameters
given, and an optimizer that stays at the start reports them. -/
theorem C55_start {x : List ℝ} (lamb : ℝ) {omega alpha beta : ℝ} (gamma rf var : ℝ) (symmetric : Bool)
    (hω : 0 < omega ∧ omega < 1) (hα : 0 < alpha ∧ alpha < 1) (hβ : 0 < beta ∧ beta < 1) :
    filterPar (start lamb (some omega) (some alpha) beta gamma var) symmetric = ⟨lamb, omega, alpha, beta, gamma⟩ ∧
    ∀ v f, fit (fun _ s => (v, s)) x lamb (some omega) (some alpha) beta gamma rf var symmetric = .ok f →
      f.estimate = ⟨lamb, omega, alpha, beta, if symmetric then 0 else gamma⟩ := by
  constructor
  · simp only [filterPar, start, Option.getD_some]
    rw [sigmoid_logit hω.1 hω.2, sigmoid_logit hα.1 hα.2, sigmoid_logit hβ.1 hβ.2]
    cases symmetric <;> simp [invert]
  · intro v f hf
    obtain ⟨_, res, -, -, hres, -, -, he, -⟩ := fit_ok hf
    rw [he, ← hres]
    simp only [start, Option.getD_some]
    rw [sigmoid_logit hω.1 hω.2, sigmoid_logit hα.1 hα.2, sigmoid_logit hβ.1 hβ.2]

/-! ### Likelihood -/

/-- The likelihood as a sum over the filter's sequences. -/
theorem llh_eq {x0 : HN.Par} {symmetric : Bool} (hp : ValidSeries (filterPar x0 symmetric)) (rf : ℝ)
    {x : List ℝ} (hL : 0 < x.length) :
    let p := filterPar x0 symmetric
    let h := FH p rf (hnVariance p.omega p.alpha p.beta p.gamma) (x.getD · 0)
    llh x0 symmetric rf x = .ok (-((List.range x.length).map fun i =>
      log (gaussianPDFReal (rf + x0.lamb * h i) (h i).toNNReal (x.getD i 0))).sum,
      tab x.length (FZ p rf (hnVariance p.omega p.alpha p.beta p.gamma) (x.getD · 0)), tab x.length h) := by
  have hf := filter_ok (filterPar x0 symmetric) rf hL
  rw [hnVariance_eq] at hf
  intro p
  set σ := hnVariance p.omega p.alpha p.beta p.gamma with hσ
  intro hh
  have hlam : p.lamb = x0.lamb := rfl
  simp only [llh, hf, bind, Except.bind, pure, Except.pure]
  congr 3
  simp only [tab, List.zip_map', List.map_map]
  congr 1
  apply List.map_congr_left
  intro i _
  simp only [Function.comp]
  set h := FH p rf σ (x.getD · 0) i with hh'
  have hpos : 0 < h := hp.omega.trans_le (le_hnFilt hp.omega.le hp.alpha hp.beta hp.le_variance _ i)
  change log (pdf (FZ p rf σ (x.getD · 0) i) / √h) = log (gaussianPDFReal (rf + x0.lamb * h) h.toNNReal (x.getD i 0))
  congr 1
  rw [gaussianPDFReal, pdf, Real.coe_toNNReal _ hpos.le, FZ, hnInno, ← hh', hlam]
  have hs : √h ^ 2 = h := sq_sqrt hpos.le
  have h2 : √(2 * π * h) = √(2 * π) * √h := sqrt_mul (by positivity) _
  rw [h2, div_pow, hs, mul_inv, div_div, div_eq_inv_mul, mul_inv]
  congr 2
  rw [show x.getD i 0 - (rf + x0.lamb * h) = x.getD i 0 - rf - x0.lamb * h by ring]
  field_simp

/-- **C65.** The objective is minus the log-likelihood: for every stationary parameter and non-empty series it is
minus the sum of the logarithms of the conditional normal densities of the observations, mean `r + λ h`, variance
`h`. -/
theorem C65_likelihood {x0 : HN.Par} {symmetric : Bool} (hp : ValidSeries (filterPar x0 symmetric)) (rf : ℝ)
    {x : List ℝ} (hx : x ≠ []) :
    ∃ l z h, llh x0 symmetric rf x = .ok (l, z, h) ∧ h.length = x.length ∧
      l = -((x.zip h).map (fun xh => log (gaussianPDFReal (rf + x0.lamb * xh.2) xh.2.toNNReal xh.1))).sum := by
  have hL : 0 < x.length := List.length_pos_iff.2 hx
  have hllh := llh_eq hp rf hL
  refine ⟨_, _, _, hllh, length_tab _ _, ?_⟩
  congr 2
  set hh := FH (filterPar x0 symmetric) rf (hnVariance (filterPar x0 symmetric).omega (filterPar x0 symmetric).alpha
    (filterPar x0 symmetric).beta (filterPar x0 symmetric).gamma) (x.getD · 0)
  have hxz : x.zip (tab x.length hh) = (tab x.length (x.getD · 0)).zip (tab x.length hh) := by
    congr 1
    exact eq_tab x
  rw [hxz]
  simp only [tab, List.zip_map', List.map_map]
  rfl

/-- **C65 fails** for the reported log-likelihood: if the optimizer returns the value of the
objective at its result, `minimum` exceeds the log-likelihood there by `len(x) √(2π)`. -/
theorem C65_minimum_fails {minimize : (HN.Par → Except PyErr ℝ) → HN.Par → ℝ × HN.Par} {x : List ℝ} (hx : x ≠ [])
    {lamb : ℝ} {omega alpha : Option ℝ} {beta gamma rf var : ℝ} {symmetric : Bool} {f : Fit}
    (hf : fit minimize x lamb omega alpha beta gamma rf var symmetric = .ok f)
    (hmin : (llh (minimize (fun q => (llh q symmetric rf x).map (·.1)) (start lamb omega alpha beta gamma var)).2
        symmetric rf x).map (·.1)
      = .ok (minimize (fun q => (llh q symmetric rf x).map (·.1)) (start lamb omega alpha beta gamma var)).1) :
    ∃ x0 l, llh x0 symmetric rf x = .ok (l, f.z, f.h) ∧ f.minimum = -l + x.length * √(2 * π) ∧ f.minimum ≠ -l := by
  obtain ⟨v, res, -, -, hres, hm, ⟨l, hl⟩, -⟩ := fit_ok hf
  rw [hres, hl] at hmin
  have hl1 : l = res.1 := by simpa [Except.map] using hmin
  have hL : 0 < x.length := List.length_pos_iff.2 hx
  have hpi : 0 < √(2 * π) := sqrt_pos.2 (by positivity)
  refine ⟨res.2, l, hl, by rw [hm, hl1], ?_⟩
  rw [hm, hl1]
  have : (0 : ℝ) < x.length * √(2 * π) := by positivity
  linarith

/-- Concrete stationary parameters. -/
example : ValidSeries { lamb := 4, omega := 8e-5, alpha := 6e-5, beta := 0.1, gamma := 100 } :=
  ⟨by norm_num, by norm_num, by norm_num, by norm_num⟩

/-- The transformed parameters `0, 0, 0` with `gamma = 1/2` are stationary (used by `C65_likelihood`). -/
example : ValidSeries (filterPar ⟨0, 0, 0, 0, 1 / 2⟩ true) := by
  have h2 : sigmoid 0 = 1 / 2 := by simp [sigmoid]; norm_num
  constructor <;> simp only [filterPar, h2] <;> norm_num [invert]

end Verif.Props
