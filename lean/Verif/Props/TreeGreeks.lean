import Verif.Props.TreeLimit
import Verif.Lemmas.TreeOrder

/-!
# C79: spot sensitivities of European tree prices

The finite-difference greeks differentiate `s ↦ price` of a copy of the option (C10). For a European tree that function is
convex and piecewise linear. Its difference quotients converge to the Black–Scholes delta, but its second derivative is
zero wherever it exists.
-/
namespace Verif.Props
open Verif Verif.Spec Real Filter _root_.Verif.Tree
open scoped Topology

/-- Convex functions converging pointwise have difference quotients converging to the derivative of the limit,
uniformly over small increments. -/
theorem convex_slopes {f : ℕ → ℝ → ℝ} {g : ℝ → ℝ} {S δ : ℝ} (hc : ∀ᶠ n in atTop, Cvx (f n))
    (hl : ∀ s, Tendsto (fun n => f n s) atTop (𝓝 (g s))) (hg : HasDerivAt g δ S) {ε : ℝ} (hε : 0 < ε) :
    ∃ η > 0, ∀ᶠ n in atTop, ∀ h, h ≠ 0 → |h| ≤ η → |(f n (S + h) - f n S) / h - δ| < ε := by
  have hs : Tendsto (fun h => h⁻¹ * (g (S + h) - g S)) (𝓝[≠] 0) (𝓝 δ) := by
    simpa [smul_eq_mul] using hasDerivAt_iff_tendsto_slope_zero.1 hg
  have hev := (Metric.tendsto_nhds.1 hs) (ε / 2) (by linarith)
  rw [eventually_nhdsWithin_iff, Metric.eventually_nhds_iff] at hev
  obtain ⟨ρ, hρ, hb⟩ := hev
  refine ⟨ρ / 2, by linarith, ?_⟩
  have h1 := @hb (ρ / 2) (by rw [Real.dist_eq, sub_zero, abs_of_pos] <;> linarith) (by simp; linarith)
  have h2 := @hb (-(ρ / 2)) (by rw [Real.dist_eq, sub_zero, abs_neg, abs_of_pos] <;> linarith) (by simp; linarith)
  rw [Real.dist_eq] at h1 h2
  have l1 : Tendsto (fun n => (ρ / 2)⁻¹ * (f n (S + ρ / 2) - f n S)) atTop (𝓝 ((ρ / 2)⁻¹ * (g (S + ρ / 2) - g S))) :=
    ((hl _).sub (hl _)).const_mul _
  have l2 : Tendsto (fun n => (-(ρ / 2))⁻¹ * (f n (S + -(ρ / 2)) - f n S)) atTop
      (𝓝 ((-(ρ / 2))⁻¹ * (g (S + -(ρ / 2)) - g S))) :=
    ((hl _).sub (hl _)).const_mul _
  have hη : 0 < ρ / 2 := by linarith
  filter_upwards [hc, (Metric.tendsto_nhds.1 l1) (ε / 2) (by linarith), (Metric.tendsto_nhds.1 l2) (ε / 2) (by linarith)]
    with n hcn e1 e2 h hh hle
  rw [Real.dist_eq] at e1 e2
  generalize ρ / 2 = η at *
  have hup : η⁻¹ * (f n (S + η) - f n S) < δ + ε := by
    linarith [(abs_lt.1 e1).2, (abs_lt.1 h1).2]
  have hlo : δ - ε < η⁻¹ * (f n S - f n (S - η)) := by
    have e : (-η)⁻¹ * (f n (S + -η) - f n S) = η⁻¹ * (f n S - f n (S - η)) := by
      rw [inv_neg, sub_eq_add_neg S η]; ring
    rw [← e]
    linarith [(abs_lt.1 e2).1, (abs_lt.1 h2).1]
  -- chords of a convex function
  have key : ∀ x y z : ℝ, x < y → y < z → (f n y - f n x) / (y - x) ≤ (f n z - f n y) / (z - y) := by
    intro x y z hxy hyz
    have hxz : 0 < z - x := by linarith
    have := hcn x z ((z - y) / (z - x)) ((y - x) / (z - x)) (div_nonneg (by linarith) hxz.le)
      (div_nonneg (by linarith) hxz.le) (by field_simp; ring)
    rw [show (z - y) / (z - x) * x + (y - x) / (z - x) * z = y by field_simp; ring] at this
    rw [div_le_div_iff₀ (by linarith) (by linarith)]
    have h3 : f n y * (z - x) ≤ (z - y) * f n x + (y - x) * f n z := by
      have := mul_le_mul_of_nonneg_right this hxz.le
      have e : ((z - y) / (z - x) * f n x + (y - x) / (z - x) * f n z) * (z - x) = (z - y) * f n x + (y - x) * f n z := by
        field_simp
      linarith
    linarith
  -- chords from `S` grow with the endpoint
  have key2 : ∀ y z : ℝ, S < y → y ≤ z → (f n y - f n S) / (y - S) ≤ (f n z - f n S) / (z - S) := by
    intro y z hy hyz
    rcases hyz.eq_or_lt with rfl | hyz
    · exact le_rfl
    have := key S y z hy hyz
    rw [div_le_div_iff₀ (by linarith) (by linarith)] at this ⊢
    nlinarith
  have key3 : ∀ x y : ℝ, x ≤ y → y < S → (f n S - f n x) / (S - x) ≤ (f n S - f n y) / (S - y) := by
    intro x y hxy hy
    rcases hxy.eq_or_lt with rfl | hxy
    · exact le_rfl
    have := key x y S hxy hy
    rw [div_le_div_iff₀ (by linarith) (by linarith)] at this ⊢
    nlinarith
  have c1 : (f n (S + η) - f n S) / (S + η - S) < δ + ε := by
    rw [add_sub_cancel_left, div_eq_inv_mul]; exact hup
  have c2 : δ - ε < (f n S - f n (S - η)) / (S - (S - η)) := by
    rw [sub_sub_cancel, div_eq_inv_mul]; exact hlo
  rcases lt_or_gt_of_ne hh with hn | hp
  · have hle' : -h ≤ η := by rw [abs_of_neg hn] at hle; exact hle
    have e : (f n (S + h) - f n S) / h = (f n S - f n (S + h)) / (S - (S + h)) := by
      rw [show S - (S + h) = -h by ring, show f n S - f n (S + h) = -(f n (S + h) - f n S) by ring, neg_div_neg_eq]
    rw [e, abs_lt]
    have a1 := key3 (S - η) (S + h) (by linarith) (by linarith)
    have a2 := key (S + h) S (S + η) (by linarith) (by linarith)
    constructor <;> linarith
  · have hle' : h ≤ η := by rw [abs_of_pos hp] at hle; exact hle
    have e : (f n (S + h) - f n S) / h = (f n (S + h) - f n S) / (S + h - S) := by rw [add_sub_cancel_left]
    rw [e, abs_lt]
    have a1 := key2 (S + h) (S + η) (by linarith) (by linarith)
    have a2 := key (S - η) S (S + h) (by linarith) (by linarith)
    constructor <;> linarith

theorem expectation_convex {Df p u d K : ℝ} (isCall : Bool) (n : ℕ) (hD : 0 ≤ Df) (h0 : 0 ≤ p) (h1 : p ≤ 1) :
    Cvx fun s => binomialExpectation Df p n (fun k => payoff isCall (node s u d n k) K) := by
  intro x y a b ha hb hab
  have hq : 0 ≤ 1 - p := by linarith
  simp only [binomialExpectation]
  rw [mul_left_comm a, mul_left_comm b, ← mul_add]
  refine mul_le_mul_of_nonneg_left ?_ (pow_nonneg hD n)
  rw [Finset.mul_sum, Finset.mul_sum, ← Finset.sum_add_distrib]
  refine Finset.sum_le_sum fun k _ => ?_
  have hw : 0 ≤ (n.choose k : ℝ) * p ^ k * (1 - p) ^ (n - k) := by positivity
  have hp := payoff_convex isCall K (node x u d n k) (node y u d n k) a b ha hb hab
  have e : node (a * x + b * y) u d n k = a * node x u d n k + b * node y u d n k := by unfold node; ring
  simp only at hp
  rw [← e] at hp
  have := mul_le_mul_of_nonneg_left hp hw
  linarith

theorem df_nonneg (c : Cls) (o : Opt) : 0 ≤ (factors c o).Df := by
  cases c <;> exact (exp_pos _).le

/-- **C79, delta.** For every class and contract and every tolerance there are a largest increment `η` and a number of
steps from which on all difference quotients in the spot with increments up to `η` (so also the derivative, if it
exists) are within the tolerance of the Black–Scholes delta. -/
theorem C79_delta (c : Cls) (isCall : Bool) {S K t σ : ℝ} (h : Valid S K t σ) (r b : ℝ) {ε : ℝ} (hε : 0 < ε) :
    ∃ η > 0, ∃ N, ∀ n ≥ N, 0 < n → ∀ P : ℝ → ℝ,
      (∀ s, price c ⟨s, K, t, r, b, σ, "european", n⟩ isCall = .ok (P s)) →
      (∀ e, e ≠ 0 → |e| ≤ η → |(P (S + e) - P S) / e - deriv (fun s => bsPrice isCall s K t r b σ) S| < ε) ∧
      ∀ δ, HasDerivAt P δ S → |δ - deriv (fun s => bsPrice isCall s K t r b σ) S| ≤ ε := by
  obtain ⟨-, δ, -, hδ, -⟩ := C03_delta h r b isCall
  rw [hδ.deriv]
  let f : ℕ → ℝ → ℝ := fun n s => binomialExpectation (factors c (steps S K t r b σ n)).Df (factors c (steps S K t r b σ n)).p n
    (fun k => payoff isCall (node s (factors c (steps S K t r b σ n)).u (factors c (steps S K t r b σ n)).d n k) K)
  have hf : ∀ n > 0, ∀ s, price c ⟨s, K, t, r, b, σ, "european", n⟩ isCall = .ok (f n s) := by
    intro n hn s
    rw [european_price c _ hn rfl isCall]
    cases c <;> rfl
  have hlim : ∀ s, Tendsto (fun n => f n s) atTop (𝓝 (bsPrice isCall s K t r b σ)) := by
    intro s
    obtain ⟨x, hx, hl⟩ := C68_binomial c isCall h.t h.σ s K r b
    refine hl.congr' ?_
    filter_upwards [eventually_gt_atTop 0] with n hn
    have := (hx n hn).symm.trans (hf n hn s)
    injection this
  have hconv : ∀ᶠ n in atTop, Cvx (f n) := by
    have hst := steps_factors c (steps S K t r b σ) h.t h.σ fun n => ⟨rfl, rfl, rfl, rfl⟩
    filter_upwards [hst.prob] with n hn
    exact expectation_convex isCall n (df_nonneg c _) hn.1 hn.2
  obtain ⟨η, hη, hev⟩ := convex_slopes hconv hlim hδ hε
  obtain ⟨N, hN⟩ := eventually_atTop.1 hev
  refine ⟨η, hη, N, fun n hn hn0 P hP => ?_⟩
  have hPf : P = f n := by
    funext s
    have := (hP s).symm.trans (hf n hn0 s)
    injection this
  rw [hPf]
  refine ⟨hN n hn, fun d hd => ?_⟩
  have hs : Tendsto (fun e => e⁻¹ * (f n (S + e) - f n S)) (𝓝[≠] 0) (𝓝 d) := by
    simpa [smul_eq_mul] using hasDerivAt_iff_tendsto_slope_zero.1 hd
  have ha : Tendsto (fun e => |e⁻¹ * (f n (S + e) - f n S) - δ|) (𝓝[≠] 0) (𝓝 |d - δ|) := (hs.sub_const δ).abs
  refine le_of_tendsto ha ?_
  rw [eventually_nhdsWithin_iff, Metric.eventually_nhds_iff]
  refine ⟨η, hη, fun e he hne => ?_⟩
  rw [Real.dist_eq, sub_zero] at he
  have := hN n hn e hne he.le
  rw [div_eq_inv_mul] at this
  exact this.le

/-- **C79, delta of the trinomial tree.** -/
theorem C79_delta_trinomial (isCall : Bool) {S K t σ : ℝ} (h : Valid S K t σ) (r b : ℝ) {ε : ℝ} (hε : 0 < ε) :
    ∃ η > 0, ∃ N, ∀ n ≥ N, 0 < n → ∀ P : ℝ → ℝ,
      (∀ s, price3 ⟨s, K, t, r, b, σ, "european", n⟩ isCall = .ok (P s)) →
      (∀ e, e ≠ 0 → |e| ≤ η → |(P (S + e) - P S) / e - deriv (fun s => bsPrice isCall s K t r b σ) S| < ε) ∧
      ∀ δ, HasDerivAt P δ S → |δ - deriv (fun s => bsPrice isCall s K t r b σ) S| ≤ ε := by
  obtain ⟨η, hη, N, hN⟩ := C79_delta .crr isCall h r b hε
  refine ⟨η, hη, N, fun n hn hn0 P hP => hN (2 * n) (by omega) (by omega) P fun s => ?_⟩
  rw [← hP s, C25_trinomial_eq_crr _ ⟨h.t, h.σ, hn0⟩ rfl]

/-- A payoff is affine near every underlying different from the strike. -/
theorem payoff_affine (isCall : Bool) {x K : ℝ} (hx : x ≠ K) :
    ∃ α β : ℝ, ∀ᶠ y in 𝓝 x, payoff isCall y K = α + β * y := by
  rcases lt_or_gt_of_ne hx with h | h
  · cases isCall
    · refine ⟨K, -1, ?_⟩
      filter_upwards [eventually_lt_nhds h] with y hy
      simp only [payoff, Bool.false_eq_true, if_false]
      rw [max_eq_left (by linarith)]; ring
    · refine ⟨0, 0, ?_⟩
      filter_upwards [eventually_lt_nhds h] with y hy
      simp only [payoff, if_true]
      rw [max_eq_right (by linarith)]; ring
  · cases isCall
    · refine ⟨0, 0, ?_⟩
      filter_upwards [eventually_gt_nhds h] with y hy
      simp only [payoff, Bool.false_eq_true, if_false]
      rw [max_eq_right (by linarith)]; ring
    · refine ⟨-K, 1, ?_⟩
      filter_upwards [eventually_gt_nhds h] with y hy
      simp only [payoff, if_true]
      rw [max_eq_left (by linarith)]; ring

/-- **C79, gamma.** Unless a terminal node falls exactly on the strike, the European tree price is an affine function of
the spot near `S`: delta is locally constant and the second derivative is zero, for every number of steps. -/
theorem C79_gamma_zero (c : Cls) (isCall : Bool) {S K t r b σ : ℝ} {n : ℕ} (hn : 0 < n)
    (hkink : ∀ k ≤ n, node S (factors c ⟨S, K, t, r, b, σ, "european", n⟩).u (factors c ⟨S, K, t, r, b, σ, "european", n⟩).d n k ≠ K)
    {P : ℝ → ℝ} (hP : ∀ s, price c ⟨s, K, t, r, b, σ, "european", n⟩ isCall = .ok (P s)) :
    (∃ α β, ∀ᶠ s in 𝓝 S, P s = α + β * s) ∧ HasDerivAt (deriv P) 0 S := by
  set o : Opt := ⟨S, K, t, r, b, σ, "european", n⟩ with ho
  have hf : P = fun s => binomialExpectation (factors c o).Df (factors c o).p n
      (fun k => payoff isCall (node s (factors c o).u (factors c o).d n k) K) := by
    funext s
    have h1 := hP s
    rw [european_price c _ hn rfl isCall] at h1
    injection h1 with h1
    rw [← h1]
    cases c <;> rfl
  have haff : ∀ k ∈ Finset.range (n + 1), ∃ α β : ℝ, ∀ᶠ s in 𝓝 S,
      payoff isCall (node s (factors c o).u (factors c o).d n k) K = α + β * s := by
    intro k hk
    obtain ⟨α, β, h⟩ := payoff_affine isCall (hkink k (by have := Finset.mem_range.1 hk; omega))
    have hcont : ContinuousAt (fun s => node s (factors c o).u (factors c o).d n k) S := by
      unfold node; fun_prop
    refine ⟨α, β * ((factors c o).u ^ k * (factors c o).d ^ (n - k)), ?_⟩
    filter_upwards [hcont.eventually h] with s hs
    rw [hs]
    unfold node
    ring
  choose! α β hαβ using haff
  have h1 : ∃ α β, ∀ᶠ s in 𝓝 S, P s = α + β * s := by
    refine ⟨(factors c o).Df ^ n * ∑ k ∈ Finset.range (n + 1), (n.choose k : ℝ) * (factors c o).p ^ k * (1 - (factors c o).p) ^ (n - k) * α k,
      (factors c o).Df ^ n * ∑ k ∈ Finset.range (n + 1), (n.choose k : ℝ) * (factors c o).p ^ k * (1 - (factors c o).p) ^ (n - k) * β k, ?_⟩
    have := (Filter.eventually_all_finset (Finset.range (n + 1))).2 hαβ
    filter_upwards [this] with s hs
    rw [hf]
    simp only [binomialExpectation]
    rw [Finset.sum_congr rfl fun k hk => by rw [hs k hk]]
    rw [mul_assoc _ _ s, Finset.sum_mul, ← mul_add, ← Finset.sum_add_distrib]
    congr 1
    exact Finset.sum_congr rfl fun k _ => by ring
  refine ⟨h1, ?_⟩
  obtain ⟨A, B, hAB⟩ := h1
  have hd : ∀ᶠ s in 𝓝 S, deriv P s = B := by
    filter_upwards [hAB.eventually_nhds] with s hs
    rw [Filter.EventuallyEq.deriv_eq (f := fun s => A + B * s) hs]
    simp
  exact (hasDerivAt_const S B).congr_of_eventuallyEq hd

/-- The exceptional spots are finitely many. -/
theorem C79_kinks_finite (c : Cls) {K t r b σ : ℝ} (ht : 0 < t) (hσ : 0 < σ) {n : ℕ} (hn : 0 < n) :
    {S : ℝ | ∃ k ≤ n, node S (factors c ⟨S, K, t, r, b, σ, "european", n⟩).u
      (factors c ⟨S, K, t, r, b, σ, "european", n⟩).d n k = K}.Finite := by
  let o : Opt := ⟨0, K, t, r, b, σ, "european", n⟩
  obtain ⟨hu, hd⟩ := factors_pos c (o := o) ⟨ht, hσ, hn⟩
  refine ((Finset.range (n + 1)).image fun k => K / ((factors c o).u ^ k * (factors c o).d ^ (n - k))).finite_toSet.subset ?_
  rintro S ⟨k, hk, h⟩
  simp only [Finset.coe_image, Set.mem_image, Finset.coe_range, Set.mem_Iio]
  refine ⟨k, by omega, ?_⟩
  have h' : S * (factors c o).u ^ k * (factors c o).d ^ (n - k) = K := by
    rw [← h]; cases c <;> rfl
  rw [div_eq_iff (by positivity), ← h', mul_assoc]

/-- **C79, negation for gamma.** The gamma of the tree does not converge to the Black–Scholes gamma: for every class and
contract the latter is positive, and at all but countably many spots the former is zero for all numbers of steps. -/
theorem C79_gamma_fails (c : Cls) (isCall : Bool) {K t σ : ℝ} (hK : 0 < K) (ht : 0 < t) (hσ : 0 < σ) (r b : ℝ) :
    ∃ E : Set ℝ, E.Countable ∧ ∀ S, 0 < S → S ∉ E →
      (∀ n > 0, ∀ P : ℝ → ℝ, (∀ s, price c ⟨s, K, t, r, b, σ, "european", n⟩ isCall = .ok (P s)) →
        HasDerivAt (deriv P) 0 S) ∧
      ∃ g > 0, HasDerivAt (deriv fun s => bsPrice isCall s K t r b σ) g S := by
  refine ⟨⋃ n : {n : ℕ // 0 < n}, {S : ℝ | ∃ k ≤ n.1, node S (factors c ⟨S, K, t, r, b, σ, "european", n.1⟩).u
      (factors c ⟨S, K, t, r, b, σ, "european", n.1⟩).d n.1 k = K},
    Set.countable_iUnion fun n => (C79_kinks_finite c ht hσ n.2).countable, fun S hS hE => ⟨fun n hn P hP => ?_, ?_⟩⟩
  · refine (C79_gamma_zero c isCall hn (fun k hk he => hE ?_) hP).2
    exact Set.mem_iUnion.2 ⟨⟨n, hn⟩, k, hk, he⟩
  · have hv : Valid S K t σ := ⟨hS, hK, ht, hσ⟩
    obtain ⟨g, hg, hd⟩ := C03_gamma hv r b isCall
    refine ⟨g, ?_, hd⟩
    have e : g = exp ((b - r) * t) * φ (D1 S K t b σ) / (S * σ * √t) := by
      have h2 : (GBS.new S K t r b (some σ)).gamma = .ok (exp ((b - r) * t) * NDF (GBS.d1Expr S K t b σ) / (S * σ * √t)) := rfl
      rw [hg] at h2
      injection h2 with h2
      rw [h2, NDF_eq]
    rw [e]
    have := φ_pos (D1 S K t b σ)
    have := sqrt_pos.2 ht
    positivity

/-- **C79, gamma of the trinomial tree.** For every number of steps the European price is affine near every spot but finitely
many, so its second derivative is zero there. -/
theorem C79_gamma_trinomial (isCall : Bool) {K t r b σ : ℝ} (ht : 0 < t) (hσ : 0 < σ) {n : ℕ} (hn : 0 < n) {P : ℝ → ℝ}
    (hP : ∀ s, price3 ⟨s, K, t, r, b, σ, "european", n⟩ isCall = .ok (P s)) :
    ∃ E : Set ℝ, E.Finite ∧ ∀ S ∉ E, (∃ α β, ∀ᶠ s in 𝓝 S, P s = α + β * s) ∧ HasDerivAt (deriv P) 0 S := by
  refine ⟨_, C79_kinks_finite .crr (K := K) (r := r) (b := b) ht hσ (n := 2 * n) (by omega), fun S hS =>
    C79_gamma_zero .crr isCall (n := 2 * n) (by omega) (fun k hk he => hS ⟨k, hk, he⟩) fun s => ?_⟩
  rw [← hP s, C25_trinomial_eq_crr _ ⟨ht, hσ, hn⟩ rfl]

/-- Hypotheses met: one step of CRR with `S = K = 50` has no terminal node on the strike. -/
theorem C79_example : ∃ α β, ∀ P : ℝ → ℝ, (∀ s, price .crr ⟨s, 50, 1, 0.1, 0.1, 0.4, "european", 1⟩ true = .ok (P s)) →
    (∀ᶠ s in 𝓝 (50:ℝ), P s = α + β * s) ∧ HasDerivAt (deriv P) 0 50 := by
  have hu : (1:ℝ) < exp (0.4 * √(1 / 1)) := by
    rw [one_lt_exp_iff]
    have := sqrt_pos.2 (by norm_num : (0:ℝ) < 1 / 1)
    positivity
  have hk : ∀ k ≤ 1, node (50:ℝ) (factors .crr ⟨50, 50, 1, 0.1, 0.1, 0.4, "european", 1⟩).u
      (factors .crr ⟨50, 50, 1, 0.1, 0.1, 0.4, "european", 1⟩).d 1 k ≠ 50 := by
    have e1 : (factors .crr ⟨50, 50, 1, 0.1, 0.1, 0.4, "european", 1⟩).u = exp (0.4 * √(1 / 1)) := by
      simp [factors]
    have h2 := good_crr (o := ⟨50, 50, 1, 0.1, 0.1, 0.4, "european", 1⟩) ⟨by norm_num, by norm_num, by norm_num⟩
    have e2 : (factors .crr ⟨50, 50, 1, 0.1, 0.1, 0.4, "european", 1⟩).d = 1 / exp (0.4 * √(1 / 1)) := by
      simp [factors]
    intro k hk
    interval_cases k
    · rw [node, e2]
      have : 1 / exp (0.4 * √(1 / 1)) < 1 := by rw [div_lt_one (by linarith)]; exact hu
      simp only [pow_zero, mul_one, Nat.sub_zero, pow_one]
      intro h; linarith
    · rw [node, e1]
      simp only [pow_one, Nat.sub_self, pow_zero, mul_one]
      intro h; linarith
  have hex : ∃ P₀ : ℝ → ℝ, ∀ s, price .crr ⟨s, 50, 1, 0.1, 0.1, 0.4, "european", 1⟩ true = .ok (P₀ s) :=
    ⟨_, fun s => european_price .crr ⟨s, 50, 1, 0.1, 0.1, 0.4, "european", 1⟩ one_pos rfl true⟩
  obtain ⟨P₀, hP₀⟩ := hex
  obtain ⟨⟨α, β, hab⟩, -⟩ := C79_gamma_zero .crr true one_pos hk hP₀
  refine ⟨α, β, fun P hP => ?_⟩
  have : P = P₀ := by
    funext s
    have := (hP s).symm.trans (hP₀ s)
    injection this
  rw [this]
  exact ⟨hab, (C79_gamma_zero .crr true one_pos hk hP₀).2⟩

end Verif.Props
