import Verif.Lemmas.CBNDAll
import Verif.Lemmas.BSDeriv
import Verif.Lemmas.Margrabe
import Verif.Spec.RollGeskeWhaley

/-!
The value of the American call with one dividend: bounds, exercise policies, and the closed form of a policy.
-/
namespace Verif
open Real MeasureTheory ProbabilityTheory Spec Set

theorem terminal_pos {S : ℝ} (hS : 0 < S) (t b σ z : ℝ) : 0 < terminal S t b σ z := by
  unfold terminal; positivity

theorem integrable_payoff (S K t b σ : ℝ) :
    Integrable (fun z => max (terminal S t b σ z - K) 0) (gaussianReal 0 1) :=
  ((integrable_terminal S t b σ).sub (integrable_const K)).pos_part

theorem bsCall_nonneg (S K t r b σ : ℝ) : 0 ≤ bsCall S K t r b σ :=
  mul_nonneg (exp_pos _).le (integral_nonneg fun _ => le_max_right _ _)

theorem bsCall_ge {S K t r b σ : ℝ} (ht : 0 ≤ t) : S * exp ((b - r) * t) - K * exp (-r * t) ≤ bsCall S K t r b σ := by
  rw [← bsCall_sub_bsPut (σ := σ) ht]
  have : 0 ≤ bsPut S K t r b σ := mul_nonneg (exp_pos _).le (integral_nonneg fun _ => le_max_right _ _)
  linarith

theorem terminal_sub (S S' t b σ z : ℝ) : terminal S' t b σ z - terminal S t b σ z = terminal (S' - S) t b σ z := by
  unfold terminal; ring

/-- The call is monotone and moves by at most the change of the spot (undiscounted carry). -/
theorem bsCall_lipschitz {S S' K t r σ : ℝ} (ht : 0 ≤ t) (h : S ≤ S') :
    bsCall S K t r r σ ≤ bsCall S' K t r r σ ∧ bsCall S' K t r r σ - bsCall S K t r r σ ≤ S' - S := by
  have hle : ∀ z, terminal S t r σ z ≤ terminal S' t r σ z := fun z =>
    mul_le_mul_of_nonneg_right h (exp_pos _).le
  constructor
  · refine mul_le_mul_of_nonneg_left ?_ (exp_pos _).le
    exact integral_mono (integrable_payoff _ _ _ _ _) (integrable_payoff _ _ _ _ _) fun z =>
      max_le_max (by have := hle z; linarith) le_rfl
  · unfold bsCall
    rw [← mul_sub, ← integral_sub (integrable_payoff _ _ _ _ _) (integrable_payoff _ _ _ _ _)]
    have h1 : ∫ z, (max (terminal S' t r σ z - K) 0 - max (terminal S t r σ z - K) 0) ∂gaussianReal 0 1
        ≤ ∫ z, terminal (S' - S) t r σ z ∂gaussianReal 0 1 := by
      refine integral_mono ((integrable_payoff _ _ _ _ _).sub (integrable_payoff _ _ _ _ _)) (integrable_terminal _ _ _ _)
        fun z => ?_
      simp only
      rw [← terminal_sub]
      have := hle z
      rcases le_total (terminal S' t r σ z - K) 0 with h1 | h1 <;> rcases le_total (terminal S t r σ z - K) 0 with h2 | h2 <;>
        simp only [max_eq_left, max_eq_right, h1, h2] <;> linarith
    rw [integral_terminal ht] at h1
    calc exp (-r * t) * _ ≤ exp (-r * t) * ((S' - S) * exp (r * t)) := mul_le_mul_of_nonneg_left h1 (exp_pos _).le
      _ = (S' - S) * (exp (-r * t) * exp (r * t)) := by ring
      _ = S' - S := by rw [← exp_add]; simp

theorem continuous_bsCall {K t r σ : ℝ} (ht : 0 ≤ t) : Continuous fun s => bsCall s K t r r σ := by
  refine LipschitzWith.continuous (K := 1) (LipschitzWith.of_le_add_mul 1 fun x y => ?_)
  simp only [NNReal.coe_one, one_mul, dist_eq]
  rcases le_total x y with h | h
  · have := (bsCall_lipschitz (K := K) (r := r) (σ := σ) ht h).1
    have := abs_nonneg (x - y)
    linarith
  · have := (bsCall_lipschitz (K := K) (r := r) (σ := σ) ht h).2
    have := le_abs_self (x - y)
    linarith

theorem bsCall_le_spot {S K t r σ : ℝ} (ht : 0 ≤ t) (hS : 0 ≤ S) (hK : 0 ≤ K) : bsCall S K t r r σ ≤ S := by
  have h := (bsCall_lipschitz (K := K) (r := r) (σ := σ) ht hS).2
  have h0 : bsCall 0 K t r r σ = 0 := by
    unfold bsCall
    have : ∀ z, max (terminal 0 t r σ z - K) 0 = 0 := fun z => by
      unfold terminal; rw [zero_mul]; exact max_eq_right (by linarith)
    simp only [this]; simp
  linarith

theorem continuous_terminal (S t b σ : ℝ) : Continuous fun z => terminal S t b σ z := by
  unfold terminal; fun_prop

/-- Iterated expectations: the European call today is the discounted expectation of the European call later. -/
theorem bsCall_tower {x K t td r σ : ℝ} (h0 : 0 ≤ td) (h1 : td ≤ t) :
    exp (-r * td) * ∫ z, bsCall (terminal x td r σ z) K (t - td) r r σ ∂gaussianReal 0 1 = bsCall x K t r r σ := by
  have hs : (σ * √t) ^ 2 = (σ * √td) ^ 2 + (σ * √(t - td)) ^ 2 := by
    rw [mul_pow, mul_pow, mul_pow, sq_sqrt (h0.trans h1), sq_sqrt h0, sq_sqrt (by linarith)]; ring
  have key := integral_gauss_linear hs (g := fun y => max (x * exp ((r - σ ^ 2 / 2) * t + y) - K) 0) (by fun_prop)
  unfold bsCall
  simp only [integral_const_mul]
  have e1 : ∀ z w, terminal (terminal x td r σ z) (t - td) r σ w
      = x * exp ((r - σ ^ 2 / 2) * t + (σ * √td * z + σ * √(t - td) * w)) := by
    intro z w
    simp only [terminal]
    rw [mul_assoc, ← exp_add]; congr 2; ring
  simp only [e1]
  have e2 : ∀ z, terminal x t r σ z = x * exp ((r - σ ^ 2 / 2) * t + σ * √t * z) := fun z => rfl
  simp only [e2]
  rw [← key, ← mul_assoc, ← exp_add, show -r * td + -r * (t - td) = -r * t by ring]
  congr 1
  symm
  refine integral_prod (f := fun z : ℝ × ℝ => max (x * exp ((r - σ ^ 2 / 2) * t + (σ * √td * z.1 + σ * √(t - td) * z.2)) - K) 0) ?_
  have hi : Integrable (fun z : ℝ × ℝ => x * exp ((r - σ ^ 2 / 2) * t) * (exp (σ * √td * z.1) * exp (σ * √(t - td) * z.2)))
      ((gaussianReal 0 1).prod (gaussianReal 0 1)) :=
    ((integrable_exp_mul_gaussianReal (σ * √td)).mul_prod (integrable_exp_mul_gaussianReal (σ * √(t - td)))).const_mul _
  refine ((hi.sub (integrable_const K)).pos_part).congr (Filter.Eventually.of_forall fun z => ?_)
  simp only [Pi.sub_apply]
  rw [exp_add, exp_add]
  simp only [mul_assoc]

/-- The gain of keeping the option over exercising it. -/
noncomputable def keepGain (K τ r D σ s : ℝ) : ℝ := bsCall s K τ r r σ - s - D + K

theorem keepGain_anti {K τ r D σ : ℝ} (ht : 0 ≤ τ) {s s' : ℝ} (h : s ≤ s') :
    keepGain K τ r D σ s' ≤ keepGain K τ r D σ s := by
  have := (bsCall_lipschitz (K := K) (r := r) (σ := σ) ht h).2
  unfold keepGain; linarith

theorem keepGain_lip {K τ r D σ : ℝ} (ht : 0 ≤ τ) {s s' : ℝ} (h : s ≤ s') :
    keepGain K τ r D σ s ≤ keepGain K τ r D σ s' + (s' - s) := by
  have := (bsCall_lipschitz (K := K) (r := r) (σ := σ) ht h).1
  unfold keepGain; linarith

open Classical in
/-- The value of exercising exactly above `I`. -/
noncomputable def policyValue (x K t td r D σ I : ℝ) : ℝ :=
  exp (-r * td) * ∫ z, (if I < terminal x td r σ z then terminal x td r σ z + D - K
    else bsCall (terminal x td r σ z) K (t - td) r r σ) ∂gaussianReal 0 1

theorem integrable_bsCall_terminal {x K t td r σ : ℝ} (hx : 0 < x) (hK : 0 ≤ K) (h1 : td ≤ t) :
    Integrable (fun z => bsCall (terminal x td r σ z) K (t - td) r r σ) (gaussianReal 0 1) := by
  refine Integrable.mono' (integrable_terminal x td r σ) ?_ (Filter.Eventually.of_forall fun z => ?_)
  · exact ((continuous_bsCall (by linarith)).comp (continuous_terminal _ _ _ _)).aestronglyMeasurable
  · rw [norm_eq_abs, abs_of_nonneg (bsCall_nonneg _ _ _ _ _ _)]
    exact bsCall_le_spot (by linarith) (terminal_pos hx _ _ _ _).le hK

theorem integrable_policy {x K t td r D σ I : ℝ} (hx : 0 < x) (hK : 0 ≤ K) (h1 : td ≤ t) :
    Integrable (fun z => if I < terminal x td r σ z then terminal x td r σ z + D - K
      else bsCall (terminal x td r σ z) K (t - td) r r σ) (gaussianReal 0 1) := by
  have hm : MeasurableSet {z | I < terminal x td r σ z} :=
    measurableSet_lt measurable_const (continuous_terminal _ _ _ _).measurable
  have h2 : Integrable (fun z => terminal x td r σ z + D - K) (gaussianReal 0 1) :=
    ((integrable_terminal _ _ _ _).add (integrable_const D)).sub (integrable_const K)
  have := (h2.indicator hm).add ((integrable_bsCall_terminal (t := t) (r := r) (σ := σ) hx hK h1).indicator hm.compl)
  refine this.congr (Filter.Eventually.of_forall fun z => ?_)
  by_cases hz : I < terminal x td r σ z
  · simp [hz, indicator]
  · simp [hz, indicator]

theorem integrable_exDividend {x K t td r D σ : ℝ} (hx : 0 < x) (hK : 0 ≤ K) (h1 : td ≤ t) :
    Integrable (fun z => exDividendValue K (t - td) r D σ (terminal x td r σ z)) (gaussianReal 0 1) := by
  have h2 : Integrable (fun z => terminal x td r σ z + D - K) (gaussianReal 0 1) :=
    ((integrable_terminal _ _ _ _).add (integrable_const D)).sub (integrable_const K)
  exact h2.sup (integrable_bsCall_terminal (t := t) hx hK h1)

/-- A threshold at which keeping and exercising are almost worth the same is almost optimal. -/
theorem policy_near_optimal {x K t td r D σ I : ℝ} (hx : 0 < x) (hK : 0 ≤ K) (h1 : td ≤ t) :
    |policyValue x K t td r D σ I - dividendCall x K t td r D σ|
      ≤ exp (-r * td) * |keepGain K (t - td) r D σ I| := by
  have hi := integrable_exDividend (r := r) (D := D) (σ := σ) hx hK h1
  have hp := integrable_policy (r := r) (D := D) (σ := σ) (I := I) hx hK h1
  rw [policyValue, dividendCall, ← mul_sub, ← integral_sub hp hi, abs_mul, abs_of_pos (exp_pos _)]
  refine mul_le_mul_of_nonneg_left ?_ (exp_pos _).le
  refine (abs_integral_le_integral_abs).trans ?_
  have hb : ∀ z, |(if I < terminal x td r σ z then terminal x td r σ z + D - K
      else bsCall (terminal x td r σ z) K (t - td) r r σ) - exDividendValue K (t - td) r D σ (terminal x td r σ z)|
      ≤ |keepGain K (t - td) r D σ I| := by
    intro z
    have n1 := neg_abs_le (keepGain K (t - td) r D σ I)
    have n2 := le_abs_self (keepGain K (t - td) r D σ I)
    have n3 := abs_nonneg (keepGain K (t - td) r D σ I)
    generalize terminal x td r σ z = s
    rw [exDividendValue]
    split_ifs with hz
    · have ha := keepGain_anti (K := K) (r := r) (D := D) (σ := σ) (sub_nonneg.2 h1) hz.le
      have e : keepGain K (t - td) r D σ s = bsCall s K (t - td) r r σ - (s + D - K) := by unfold keepGain; ring
      rw [e] at ha
      rcases le_total (s + D - K) (bsCall s K (t - td) r r σ) with h | h
      · rw [max_eq_right h, abs_le]; constructor <;> linarith
      · rw [max_eq_left h, sub_self, abs_zero]; exact n3
    · have ha := keepGain_anti (K := K) (r := r) (D := D) (σ := σ) (sub_nonneg.2 h1) (not_lt.1 hz)
      have e : keepGain K (t - td) r D σ s = bsCall s K (t - td) r r σ - (s + D - K) := by unfold keepGain; ring
      rw [e] at ha
      rcases le_total (s + D - K) (bsCall s K (t - td) r r σ) with h | h
      · rw [max_eq_right h, sub_self, abs_zero]; exact n3
      · rw [max_eq_left h, abs_le]; constructor <;> linarith
  calc ∫ z, |(if I < terminal x td r σ z then terminal x td r σ z + D - K
      else bsCall (terminal x td r σ z) K (t - td) r r σ) - exDividendValue K (t - td) r D σ (terminal x td r σ z)|
        ∂gaussianReal 0 1 ≤ ∫ _, |keepGain K (t - td) r D σ I| ∂gaussianReal 0 1 :=
        integral_mono (hp.sub hi).abs (integrable_const _) hb
    _ = _ := by simp

/-- The closed form of the value of a threshold policy. -/
theorem policy_closed {x K t td r D σ I : ℝ} (hx : 0 < x) (hK : 0 < K) (h0 : 0 < td) (h1 : td < t) (hσ : 0 < σ)
    (hI : 0 < I) :
    policyValue x K t td r D σ I
      = x * Φ (D1 x I td r σ) + x * N2 (D1 x K t r σ) (-D1 x I td r σ) (-√(td / t))
        - K * exp (-r * t) * N2 (D1 x K t r σ - σ * √t) (-(D1 x I td r σ - σ * √td)) (-√(td / t))
        - (K - D) * exp (-r * td) * Φ (D1 x I td r σ - σ * √td) := by
  have ht : 0 < t := h0.trans h1
  have hτ : 0 < t - td := sub_pos.2 h1
  have hrt : td / t < 1 := (div_lt_one ht).2 h1
  have hrt0 : 0 < td / t := by positivity
  have hρ : |(-√(td / t))| < 1 := by
    rw [abs_neg, abs_of_nonneg (sqrt_nonneg _), sqrt_lt' one_pos]; simpa using hrt
  set a := bsA x I td r σ with ha
  have hD1 : D1 x I td r σ = σ * √td - a := (D1_eq h0 hσ).symm
  have hD2 : D1 x I td r σ - σ * √td = -a := by rw [hD1]; ring
  have hkap : √(1 - (-√(td / t)) ^ 2) = √(t - td) / √t := by
    rw [neg_sq, sq_sqrt hrt0.le, ← sqrt_div hτ.le]; congr 1; field_simp
  have st : √t ^ 2 = t := sq_sqrt ht.le
  have std : √td ^ 2 = td := sq_sqrt h0.le
  have sτ : √(t - td) ^ 2 = t - td := sq_sqrt hτ.le
  have p1 : 0 < √t := sqrt_pos.2 ht
  have p2 : 0 < √td := sqrt_pos.2 h0
  have p3 : 0 < √(t - td) := sqrt_pos.2 hτ
  have hrd : √(td / t) = √td / √t := sqrt_div h0.le _
  have mulD1 : ∀ y k s : ℝ, 0 < s → √s * D1 y k s r σ = (log (y / k) + (r + σ ^ 2 / 2) * s) / σ := by
    intro y k s hs
    have := sqrt_pos.2 hs
    unfold D1 GBS.d1Expr
    field_simp
  -- the two conditional probabilities
  have arg2 : ∀ z, D1 (terminal x td r σ z) K (t - td) r σ - σ * √(t - td)
      = ((D1 x K t r σ - σ * √t) - -√(td / t) * z) / √(1 - (-√(td / t)) ^ 2) := by
    intro z
    rw [hkap, hrd]
    have hl : log (terminal x td r σ z / K) = log (x / K) + ((r - σ ^ 2 / 2) * td + σ * √td * z) := by
      unfold terminal
      rw [mul_div_right_comm, log_mul (by positivity) (exp_pos _).ne', log_exp]
    have m1 := mulD1 (terminal x td r σ z) K (t - td) hτ
    have m2 := mulD1 x K t ht
    rw [hl] at m1
    rw [← sub_eq_zero]
    have e : D1 (terminal x td r σ z) K (t - td) r σ - σ * √(t - td)
        - (D1 x K t r σ - σ * √t - -(√td / √t) * z) / (√(t - td) / √t)
        = (√(t - td) * D1 (terminal x td r σ z) K (t - td) r σ - σ * √(t - td) ^ 2
          - (√t * D1 x K t r σ - σ * √t ^ 2 + √td * z)) / √(t - td) := by
      field_simp
      ring
    rw [e, m1, m2, sτ, st, div_eq_zero_iff]
    left
    field_simp
    ring
  have arg1 : ∀ u, D1 (terminal x td r σ (u + σ * √td)) K (t - td) r σ
      = (D1 x K t r σ - -√(td / t) * u) / √(1 - (-√(td / t)) ^ 2) := by
    intro u
    have := arg2 (u + σ * √td)
    rw [sub_eq_iff_eq_add] at this
    rw [this, hkap, hrd]
    field_simp
    linear_combination σ * std - σ * st + σ * sτ
  have hcond : ∀ z, I < terminal x td r σ z ↔ a < z := fun z => terminal_gt_iff hx hI h0 hσ z
  rw [policyValue, integral_gauss]
  have split : ∀ z, (if I < terminal x td r σ z then terminal x td r σ z + D - K
      else bsCall (terminal x td r σ z) K (t - td) r r σ) * φ z
      = (Ioi a).indicator (fun z => x * exp ((r - σ ^ 2 / 2) * td) * (exp (σ * √td * z) * φ z) + (D - K) * φ z) z
        + (Iic a).indicator (fun z => x * exp ((r - σ ^ 2 / 2) * td) * (Φ (D1 (terminal x td r σ z) K (t - td) r σ) * (exp (σ * √td * z) * φ z))
          - K * exp (-r * (t - td)) * (Φ (((D1 x K t r σ - σ * √t) - -√(td / t) * z) / √(1 - (-√(td / t)) ^ 2)) * φ z)) z := by
    intro z
    by_cases hz : a < z
    · rw [if_pos ((hcond z).2 hz), indicator_of_mem (mem_Ioi.2 hz), indicator_of_notMem (by simpa using hz), add_zero]
      simp only [terminal, exp_add]; ring
    · rw [if_neg (mt (hcond z).1 hz), indicator_of_notMem (by simpa using hz), indicator_of_mem (mem_Iic.2 (not_lt.1 hz)),
        zero_add, bsCall_eq (terminal_pos hx _ _ _ _) hK hτ hσ, sub_self, zero_mul, exp_zero, mul_one]
      rw [arg2 z]
      simp only [terminal, exp_add]; ring
  simp only [split]
  have i1 : Integrable (fun z => x * exp ((r - σ ^ 2 / 2) * td) * (exp (σ * √td * z) * φ z) + (D - K) * φ z) :=
    ((integrable_exp_φ _).const_mul _).add (integrable_φ.const_mul _)
  have bddΦ : ∀ (f g : ℝ → ℝ), Continuous f → Integrable g → Integrable fun z => Φ (f z) * g z := by
    intro f g hf hg
    refine hg.bdd_mul (c := 1) (continuous_Φ.comp hf).aestronglyMeasurable (Filter.Eventually.of_forall fun z => ?_)
    rw [norm_eq_abs, abs_of_pos (Φ_pos _)]; exact (Φ_lt_one _).le
  have cD : Continuous fun z => D1 (terminal x td r σ z) K (t - td) r σ := by
    have : (fun z => D1 (terminal x td r σ z) K (t - td) r σ)
        = fun z => ((D1 x K t r σ - σ * √t) - -√(td / t) * z) / √(1 - (-√(td / t)) ^ 2) + σ * √(t - td) := by
      ext z; rw [← arg2 z]; ring
    rw [this]
    fun_prop
  have i2 : Integrable (fun z => x * exp ((r - σ ^ 2 / 2) * td) * (Φ (D1 (terminal x td r σ z) K (t - td) r σ) * (exp (σ * √td * z) * φ z))) :=
    (bddΦ _ _ cD (integrable_exp_φ _)).const_mul _
  have i3 : Integrable (fun z => K * exp (-r * (t - td)) * (Φ (((D1 x K t r σ - σ * √t) - -√(td / t) * z) / √(1 - (-√(td / t)) ^ 2)) * φ z)) :=
    (bddΦ _ _ (by fun_prop) integrable_φ).const_mul _
  have i4 : Integrable (fun z => x * exp ((r - σ ^ 2 / 2) * td) * (Φ (D1 (terminal x td r σ z) K (t - td) r σ) * (exp (σ * √td * z) * φ z))
      - K * exp (-r * (t - td)) * (Φ (((D1 x K t r σ - σ * √t) - -√(td / t) * z) / √(1 - (-√(td / t)) ^ 2)) * φ z)) := i2.sub i3
  rw [integral_add (i1.indicator measurableSet_Ioi) (i4.indicator measurableSet_Iic),
    integral_indicator measurableSet_Ioi, integral_indicator measurableSet_Iic]
  have j1 : ∫ z in Ioi a, (x * exp ((r - σ ^ 2 / 2) * td) * (exp (σ * √td * z) * φ z) + (D - K) * φ z)
      = x * exp ((r - σ ^ 2 / 2) * td) * (exp ((σ * √td) ^ 2 / 2) * Φ (σ * √td - a)) + (D - K) * Φ (-a) := by
    rw [integral_add ((integrable_exp_φ _).const_mul _).integrableOn (integrable_φ.const_mul _).integrableOn,
      integral_const_mul, integral_const_mul, integral_Ioi_exp_φ, integral_Ioi_φ]
  have j3 : ∫ z in Iic a, Φ (((D1 x K t r σ - σ * √t) - -√(td / t) * z) / √(1 - (-√(td / t)) ^ 2)) * φ z
      = N2 (D1 x K t r σ - σ * √t) a (-√(td / t)) := by
    rw [N2_symm hρ.le, N2_integral hρ]
  have j2 : ∫ z in Iic a, Φ (D1 (terminal x td r σ z) K (t - td) r σ) * (exp (σ * √td * z) * φ z)
      = exp ((σ * √td) ^ 2 / 2) * N2 (D1 x K t r σ) (a - σ * √td) (-√(td / t)) := by
    rw [N2_symm hρ.le, N2_integral hρ, ← integral_const_mul]
    have := (measurePreserving_add_right volume (σ * √td)).setIntegral_preimage_emb
      (measurableEmbedding_addRight (σ * √td))
      (fun z => Φ (D1 (terminal x td r σ z) K (t - td) r σ) * (exp (σ * √td * z) * φ z)) (Iic a)
    rw [← this]
    have hs : (fun u => u + σ * √td) ⁻¹' Iic a = Iic (a - σ * √td) := by ext u; simp [le_sub_iff_add_le]
    rw [hs]
    congr 1
    ext u
    rw [arg1 u, φ_shift]
    ring_nf
  rw [j1]
  have j4 : ∫ z in Iic a, (x * exp ((r - σ ^ 2 / 2) * td) * (Φ (D1 (terminal x td r σ z) K (t - td) r σ) * (exp (σ * √td * z) * φ z))
      - K * exp (-r * (t - td)) * (Φ (((D1 x K t r σ - σ * √t) - -√(td / t) * z) / √(1 - (-√(td / t)) ^ 2)) * φ z))
      = x * exp ((r - σ ^ 2 / 2) * td) * (exp ((σ * √td) ^ 2 / 2) * N2 (D1 x K t r σ) (a - σ * √td) (-√(td / t)))
        - K * exp (-r * (t - td)) * N2 (D1 x K t r σ - σ * √t) a (-√(td / t)) := by
    rw [integral_sub i2.integrableOn i3.integrableOn, integral_const_mul, integral_const_mul, j2, j3]
  rw [j4, hD2, hD1, neg_neg, show -(σ * √td - a) = a - σ * √td by ring]
  have e1 : exp (-r * td) * (exp ((r - σ ^ 2 / 2) * td) * exp ((σ * √td) ^ 2 / 2)) = 1 := by
    rw [← exp_add, ← exp_add, mul_pow, std]
    rw [show -r * td + ((r - σ ^ 2 / 2) * td + σ ^ 2 * td / 2) = 0 by ring, exp_zero]
  have e2 : exp (-r * t) = exp (-r * td) * exp (-r * (t - td)) := by
    rw [← exp_add]; congr 1; ring
  rw [e2]
  linear_combination (x * Φ (σ * √td - a) + x * N2 (D1 x K t r σ) (a - σ * √td) (-√(td / t))) * e1

/-- Without a profitable exercise the American call is the European call. -/
theorem dividendCall_european {x K t td r D σ : ℝ} (hx : 0 < x) (h0 : 0 ≤ td) (h1 : td ≤ t)
    (hD : D ≤ K * (1 - exp (-r * (t - td)))) : dividendCall x K t td r D σ = bsCall x K t r r σ := by
  rw [← bsCall_tower (K := K) (r := r) (σ := σ) h0 h1, dividendCall]
  congr 2
  ext z
  rw [exDividendValue, max_eq_right]
  have := bsCall_ge (S := terminal x td r σ z) (K := K) (r := r) (b := r) (σ := σ) (sub_nonneg.2 h1)
  rw [sub_self, zero_mul, exp_zero, mul_one] at this
  have e : -r * (t - td) = -r * (t - td) := rfl
  linarith

end Verif
