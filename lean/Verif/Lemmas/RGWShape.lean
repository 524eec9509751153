import Verif.Lemmas.RGWValue
import Verif.Lemmas.Asian
import Mathlib.Analysis.Convex.Integral

/-!
Shape of the value of an American call on a stock with one dividend (`Spec/RollGeskeWhaley`).
-/
namespace Verif
open Real MeasureTheory ProbabilityTheory Spec Set

/-- Lognormal prices with the same mean: convex functions gain from volatility. -/
theorem terminal_convex_order {f : ℝ → ℝ} (hc : ConvexOn ℝ univ f) (hfc : Continuous f) {C : ℝ} (hb : ∀ x, |f x| ≤ |x| + C)
    (S b : ℝ) {t σ σ' : ℝ} (ht : 0 ≤ t) (h0 : 0 ≤ σ) (h : σ ≤ σ') :
    ∫ z, f (terminal S t b σ z) ∂gaussianReal 0 1 ≤ ∫ z, f (terminal S t b σ' z) ∂gaussianReal 0 1 := by
  set s := √(σ' ^ 2 - σ ^ 2) with hsd
  have hs2 : s ^ 2 = σ' ^ 2 - σ ^ 2 := sq_sqrt (by nlinarith)
  have hs : (σ' * √t) ^ 2 = (σ * √t) ^ 2 + (s * √t) ^ 2 := by
    rw [mul_pow, mul_pow, mul_pow, hs2]; ring
  have key := integral_gauss_linear hs (g := fun y => f (S * exp ((b - σ' ^ 2 / 2) * t + y))) (by fun_prop)
  have e1 : ∀ z w, terminal (terminal S t b σ z) t 0 s w
      = S * exp ((b - σ' ^ 2 / 2) * t + (σ * √t * z + s * √t * w)) := by
    intro z w
    simp only [terminal]
    rw [mul_assoc, ← exp_add, hs2]; congr 2; ring
  have hi : Integrable (fun p : ℝ × ℝ => f (terminal (terminal S t b σ p.1) t 0 s p.2))
      ((gaussianReal 0 1).prod (gaussianReal 0 1)) := by
    simp only [e1]
    have h2 := (exp_lin_integrable (σ * √t) (s * √t)).const_mul (S * exp ((b - σ' ^ 2 / 2) * t))
    refine (h2.norm.add (integrable_const C)).mono' ?_ (Filter.Eventually.of_forall fun p => ?_)
    · exact Continuous.aestronglyMeasurable (by fun_prop)
    · rw [norm_eq_abs]
      refine (hb _).trans (le_of_eq ?_)
      simp only [Pi.add_apply, norm_eq_abs]
      rw [exp_add ((b - σ' ^ 2 / 2) * t), ← mul_assoc S]
  have hint : ∀ m c v, Integrable (fun z => f (terminal m t c v z)) (gaussianReal 0 1) := by
    intro m c v
    refine ((integrable_terminal m t c v).norm.add (integrable_const C)).mono' ?_ (Filter.Eventually.of_forall fun z => hb _)
    exact (hfc.comp (continuous_terminal m t c v)).aestronglyMeasurable
  calc ∫ x, f (terminal S t b σ x) ∂gaussianReal 0 1
      ≤ ∫ z, ∫ w, f (terminal (terminal S t b σ z) t 0 s w) ∂gaussianReal 0 1 ∂gaussianReal 0 1 := by
        refine integral_mono (hint ..) hi.integral_prod_left fun z => ?_
        have h2 := hc.map_integral_le hfc.continuousOn isClosed_univ (Filter.Eventually.of_forall fun _ => mem_univ _)
          (integrable_terminal (terminal S t b σ z) t 0 s) (hint ..)
        rw [integral_terminal ht, zero_mul, exp_zero, mul_one] at h2
        exact h2
    _ = ∫ p : ℝ × ℝ, f (terminal (terminal S t b σ p.1) t 0 s p.2) ∂((gaussianReal 0 1).prod (gaussianReal 0 1)) :=
        (integral_prod _ hi).symm
    _ = ∫ x, f (terminal S t b σ' x) ∂gaussianReal 0 1 := by
        simp only [e1]
        rw [key]
        rfl

theorem terminal_lin (x y a c t b σ z : ℝ) : terminal (a * x + c * y) t b σ z = a * terminal x t b σ z + c * terminal y t b σ z := by
  unfold terminal; ring

/-- The European call is jointly convex in spot and strike. -/
theorem bsCall_convex (t r b σ : ℝ) {x y K L a c : ℝ} (ha : 0 ≤ a) (hc : 0 ≤ c) :
    bsCall (a * x + c * y) (a * K + c * L) t r b σ ≤ a * bsCall x K t r b σ + c * bsCall y L t r b σ := by
  unfold bsCall
  have e : ∀ u v : ℝ, a * (exp (-r * t) * u) + c * (exp (-r * t) * v) = exp (-r * t) * (a * u + c * v) := fun u v => by ring
  rw [e, ← integral_const_mul a, ← integral_const_mul c,
    ← integral_add ((integrable_payoff ..).const_mul _) ((integrable_payoff ..).const_mul _)]
  refine mul_le_mul_of_nonneg_left (integral_mono (integrable_payoff ..)
    (((integrable_payoff ..).const_mul _).add ((integrable_payoff ..).const_mul _)) fun z => ?_) (exp_pos _).le
  simp only [Pi.add_apply]
  rw [terminal_lin]
  have h1 := mul_le_mul_of_nonneg_left (le_max_left (terminal x t b σ z - K) 0) ha
  have h2 := mul_le_mul_of_nonneg_left (le_max_left (terminal y t b σ z - L) 0) hc
  have h3 := mul_nonneg ha (le_max_right (terminal x t b σ z - K) 0)
  have h4 := mul_nonneg hc (le_max_right (terminal y t b σ z - L) 0)
  exact max_le (by linarith) (by linarith)

/-- The European call falls with the strike, at most by the discounted difference. -/
theorem bsCall_strike' {x K L t r b σ : ℝ} (h : K ≤ L) :
    bsCall x L t r b σ ≤ bsCall x K t r b σ ∧ bsCall x K t r b σ ≤ bsCall x L t r b σ + (L - K) * exp (-r * t) := by
  unfold bsCall
  refine ⟨mul_le_mul_of_nonneg_left (integral_mono (integrable_payoff ..) (integrable_payoff ..)
    fun z => max_le_max (by linarith) le_rfl) (exp_pos _).le, ?_⟩
  rw [mul_comm (L - K), ← mul_add]
  refine mul_le_mul_of_nonneg_left ?_ (exp_pos _).le
  have : ∫ z, (max (terminal x t b σ z - L) 0 + (L - K)) ∂gaussianReal 0 1
      = ∫ z, max (terminal x t b σ z - L) 0 ∂gaussianReal 0 1 + (L - K) := by
    rw [integral_add (integrable_payoff ..) (integrable_const _)]
    simp
  rw [← this]
  refine integral_mono (integrable_payoff ..) ((integrable_payoff ..).add (integrable_const _)) fun z => ?_
  have h1 := le_max_left (terminal x t b σ z - L) 0
  have h2 := le_max_right (terminal x t b σ z - L) 0
  exact max_le (by linarith) (by linarith)

theorem bsCall_abs {K t r σ : ℝ} (ht : 0 ≤ t) (hK : 0 ≤ K) (s : ℝ) : bsCall s K t r r σ ≤ |s| := by
  have h := (bsCall_lipschitz (K := K) (r := r) (σ := σ) ht (le_abs_self s)).1
  exact h.trans (bsCall_le_spot ht (abs_nonneg s) hK)

/-- The European call gains from volatility. -/
theorem bsCall_vol {K t r σ σ' : ℝ} (s : ℝ) (ht : 0 ≤ t) (h0 : 0 ≤ σ) (h : σ ≤ σ') : bsCall s K t r r σ ≤ bsCall s K t r r σ' := by
  refine mul_le_mul_of_nonneg_left (terminal_convex_order (f := fun y => max (y - K) 0) (C := |K|) ?_ (by fun_prop) ?_ s r ht h0 h)
    (exp_pos _).le
  · exact ((convexOn_id convex_univ).sub (concaveOn_const K convex_univ)).sup (convexOn_const 0 convex_univ)
  · intro x
    rw [abs_of_nonneg (le_max_right _ _)]
    exact max_le (by linarith [le_abs_self x, neg_abs_le K]) (by positivity)

section
variable {K τ r D σ : ℝ}

theorem exDividend_convex : ConvexOn ℝ univ (fun s => exDividendValue K τ r D σ s) := by
  refine ConvexOn.sup ?_ ⟨convex_univ, fun x _ y _ a c ha hc hac => ?_⟩
  · exact ((convexOn_id convex_univ).add (convexOn_const D convex_univ)).sub (concaveOn_const K convex_univ)
  · have := bsCall_convex τ r r σ (x := x) (y := y) (K := K) (L := K) ha hc
    rw [← add_mul, hac, one_mul] at this
    exact this

theorem exDividend_continuous (hτ : 0 ≤ τ) : Continuous (fun s => exDividendValue K τ r D σ s) := by
  unfold exDividendValue
  exact Continuous.max (by fun_prop) (continuous_bsCall hτ)

theorem exDividend_abs (hτ : 0 ≤ τ) (hK : 0 ≤ K) (s : ℝ) : |exDividendValue K τ r D σ s| ≤ |s| + (|D| + |K|) := by
  have h0 : 0 ≤ exDividendValue K τ r D σ s := (bsCall_nonneg ..).trans (le_max_right _ _)
  rw [abs_of_nonneg h0]
  have := abs_nonneg D
  have := abs_nonneg K
  exact max_le (by linarith [le_abs_self s, le_abs_self D, neg_abs_le K]) ((bsCall_abs hτ hK s).trans (by linarith))

theorem exDividend_mono (hτ : 0 ≤ τ) {s s' : ℝ} (h : s ≤ s') :
    exDividendValue K τ r D σ s ≤ exDividendValue K τ r D σ s' ∧
      exDividendValue K τ r D σ s' ≤ exDividendValue K τ r D σ s + (s' - s) := by
  obtain ⟨h1, h2⟩ := bsCall_lipschitz (K := K) (r := r) (σ := σ) hτ h
  unfold exDividendValue
  refine ⟨max_le_max (by linarith) h1, max_le ?_ ?_⟩
  · linarith [le_max_left (s + D - K) (bsCall s K τ r r σ)]
  · linarith [le_max_right (s + D - K) (bsCall s K τ r r σ)]

end

section
variable {x K t td r D σ : ℝ}

/-- Bounds: at least the European call and the call that is exercised on the dividend date or never; at most the European call
plus the dividend less the interest on the strike. -/
theorem dividendCall_bounds (hx : 0 < x) (hK : 0 ≤ K) (h0 : 0 ≤ td) (h1 : td ≤ t) :
    bsCall x K t r r σ ≤ dividendCall x K t td r D σ ∧ bsCall x (K - D) td r r σ ≤ dividendCall x K t td r D σ ∧
    dividendCall x K t td r D σ ≤ bsCall x K t r r σ + exp (-r * td) * max (D - K * (1 - exp (-r * (t - td)))) 0 := by
  have hi := integrable_exDividend (r := r) (D := D) (σ := σ) hx hK h1
  have hC := integrable_bsCall_terminal (r := r) (σ := σ) hx hK h1
  refine ⟨?_, ?_, ?_⟩
  · rw [← bsCall_tower (K := K) (r := r) (σ := σ) h0 h1]
    exact mul_le_mul_of_nonneg_left (integral_mono hC hi fun z => le_max_right _ _) (exp_pos _).le
  · refine mul_le_mul_of_nonneg_left (integral_mono (integrable_payoff ..) hi fun z => ?_) (exp_pos _).le
    exact max_le_max (by linarith) (bsCall_nonneg ..)
  · rw [← bsCall_tower (K := K) (r := r) (σ := σ) h0 h1, ← mul_add]
    refine mul_le_mul_of_nonneg_left ?_ (exp_pos _).le
    set m := max (D - K * (1 - exp (-r * (t - td)))) 0 with hm
    have : ∫ z, (bsCall (terminal x td r σ z) K (t - td) r r σ + m) ∂gaussianReal 0 1
        = ∫ z, bsCall (terminal x td r σ z) K (t - td) r r σ ∂gaussianReal 0 1 + m := by
      rw [integral_add hC (integrable_const _)]
      simp
    rw [← this]
    refine integral_mono hi (hC.add (integrable_const _)) fun z => ?_
    have a1 := bsCall_ge (S := terminal x td r σ z) (K := K) (r := r) (b := r) (σ := σ) (t := t - td) (by linarith)
    rw [sub_self, zero_mul, exp_zero, mul_one] at a1
    have a2 := le_max_left (D - K * (1 - exp (-r * (t - td)))) 0
    have a3 := le_max_right (D - K * (1 - exp (-r * (t - td)))) 0
    rw [← hm] at a2 a3
    exact max_le (by linarith) (by linarith)

theorem dividendCall_spot {x' : ℝ} (hx : 0 < x) (h : x ≤ x') (hK : 0 ≤ K) (h0 : 0 ≤ td) (h1 : td ≤ t) :
    dividendCall x K t td r D σ ≤ dividendCall x' K t td r D σ ∧
      dividendCall x' K t td r D σ ≤ dividendCall x K t td r D σ + (x' - x) := by
  have hx' := hx.trans_le h
  have hi := integrable_exDividend (r := r) (D := D) (σ := σ) hx hK h1
  have hi' := integrable_exDividend (r := r) (D := D) (σ := σ) hx' hK h1
  have hle : ∀ z, terminal x td r σ z ≤ terminal x' td r σ z := fun z => mul_le_mul_of_nonneg_right h (exp_pos _).le
  refine ⟨mul_le_mul_of_nonneg_left (integral_mono hi hi' fun z => (exDividend_mono (by linarith) (hle z)).1) (exp_pos _).le, ?_⟩
  have hd : Integrable (fun z => exDividendValue K (t - td) r D σ (terminal x td r σ z) + terminal (x' - x) td r σ z) (gaussianReal 0 1) :=
    hi.add (integrable_terminal ..)
  have := mul_le_mul_of_nonneg_left (integral_mono hi' hd fun z => by
    have := (exDividend_mono (K := K) (r := r) (D := D) (σ := σ) (τ := t - td) (by linarith) (hle z)).2
    rw [terminal_sub] at this
    exact this) (exp_pos (-r * td)).le
  rw [integral_add hi (integrable_terminal ..), integral_terminal h0] at this
  refine this.trans (le_of_eq ?_)
  have e : exp (-r * td) * exp (r * td) = 1 := by rw [← exp_add]; simp
  unfold dividendCall
  linear_combination (x' - x) * e

theorem dividendCall_strike {L : ℝ} (hx : 0 < x) (hK : 0 ≤ K) (h : K ≤ L) (h1 : td ≤ t) :
    dividendCall x L t td r D σ ≤ dividendCall x K t td r D σ := by
  refine mul_le_mul_of_nonneg_left (integral_mono (integrable_exDividend hx (hK.trans h) h1) (integrable_exDividend hx hK h1) fun z => ?_)
    (exp_pos _).le
  exact max_le_max (by linarith) (bsCall_strike' h).1

theorem dividendCall_vol {σ' : ℝ} (hK : 0 ≤ K) (h0 : 0 ≤ td) (h1 : td ≤ t) (hx : 0 < x) (hσ : 0 ≤ σ) (h : σ ≤ σ') :
    dividendCall x K t td r D σ ≤ dividendCall x K t td r D σ' := by
  refine mul_le_mul_of_nonneg_left ?_ (exp_pos _).le
  have hτ : 0 ≤ t - td := by linarith
  refine (terminal_convex_order (exDividend_convex) (exDividend_continuous hτ) (exDividend_abs hτ hK) x r h0 hσ h).trans ?_
  have hi : Integrable (fun z => exDividendValue K (t - td) r D σ (terminal x td r σ' z)) (gaussianReal 0 1) := by
    refine ((integrable_terminal x td r σ').norm.add (integrable_const (|D| + |K|))).mono' ?_
      (Filter.Eventually.of_forall fun z => exDividend_abs hτ hK _)
    exact ((exDividend_continuous hτ).comp (continuous_terminal ..)).aestronglyMeasurable
  exact integral_mono hi (integrable_exDividend hx hK h1) fun z => max_le_max le_rfl (bsCall_vol _ hτ hσ h)

/-- At a given stock price `x + D e^{-r td}` a higher dividend makes the call cheaper. -/
theorem dividendCall_dividend {x' D' : ℝ} (hx' : 0 < x') (hD : D ≤ D') (hS : x + D * exp (-r * td) = x' + D' * exp (-r * td))
    (hK : 0 ≤ K) (h0 : 0 ≤ td) (h1 : td ≤ t) : dividendCall x' K t td r D' σ ≤ dividendCall x K t td r D σ := by
  have hτ : 0 ≤ t - td := by linarith
  have hxx : x' ≤ x := by nlinarith [exp_pos (-r * td)]
  have hx := hx'.trans_le hxx
  refine mul_le_mul_of_nonneg_left ?_ (exp_pos _).le
  set f : ℝ → ℝ := fun s => exDividendValue K (t - td) r D σ s with hf
  set m := x * exp (r * td) with hm
  set l := x' / x with hl
  have l0 : 0 ≤ l := by positivity
  have l1 : l ≤ 1 := (div_le_one hx).2 hxx
  have hi := integrable_exDividend (r := r) (D := D) (σ := σ) hx hK h1
  have hi' := integrable_exDividend (r := r) (D := D') (σ := σ) hx' hK h1
  have jensen : f m ≤ ∫ z, f (terminal x td r σ z) ∂gaussianReal 0 1 := by
    have h2 := (exDividend_convex (K := K) (τ := t - td) (r := r) (D := D) (σ := σ)).map_integral_le (exDividend_continuous hτ).continuousOn isClosed_univ
      (Filter.Eventually.of_forall fun _ => mem_univ _) (integrable_terminal x td r σ) hi
    rwa [integral_terminal h0] at h2
  have e : exp (-r * td) * exp (r * td) = 1 := by rw [← exp_add]; simp
  have hm' : D' - D = m - x' * exp (r * td) := by
    rw [hm]; linear_combination (-(D' - D)) * e - (exp (r * td)) * hS
  have hint : Integrable (fun z => l * f (terminal x td r σ z) + (1 - l) * f m) (gaussianReal 0 1) :=
    (hi.const_mul _).add (integrable_const _)
  have pt : ∀ z, exDividendValue K (t - td) r D' σ (terminal x' td r σ z) ≤ l * f (terminal x td r σ z) + (1 - l) * f m := by
    intro z
    have e1 : terminal x' td r σ z = l * terminal x td r σ z := by
      unfold terminal; rw [hl]; field_simp
    have e2 : l * terminal x td r σ z + (1 - l) * m = terminal x' td r σ z + (D' - D) := by
      rw [e1, hm', hm, hl]; field_simp
    have h2 := (exDividend_convex (K := K) (τ := t - td) (r := r) (D := D) (σ := σ)).2 (mem_univ (terminal x td r σ z)) (mem_univ m) l0 (sub_nonneg.2 l1) (by ring)
    simp only [smul_eq_mul] at h2
    refine le_trans ?_ h2
    rw [e2]
    refine max_le_max (by linarith) ?_
    exact (bsCall_lipschitz hτ (by linarith)).1
  refine (integral_mono hi' hint pt).trans ?_
  rw [integral_add (hi.const_mul _) (integrable_const _), integral_const_mul]
  simp only [integral_const, probReal_univ, smul_eq_mul, one_mul]
  nlinarith [sub_nonneg.2 l1]

end
end Verif
