import Verif.Spec.BSPutRounding
import Verif.Model.BSPutFl
import Verif.Props.BSPriceRounding

/-! C146: rounding errors of the Bjerksund–Stensland put. -/
namespace Verif.Props
open Spec Real BSRound

/-- The rate the rounded difference stands for. -/
theorem bsu_near {e r b : ℝ} {A : ArithP} (hA : RoundedP e A) : Near e r b (A.sub r b + b) := by
  have := hA.sub r b
  unfold Near
  rwa [show A.sub r b + b - r = A.sub r b - (r - b) by ring]

/-- **C146.** In exact arithmetic the function is the put of the class: the early exercise value, or the value of holding on. -/
theorem C146_exact (S K T r b σ : ℝ) (hr : 0 < r) :
    ∃ v, BSPriceFl.put ArithP.exact S K T r b σ = some v ∧
      BS93.approx K S T (r - b) (-b) (some σ) = .ok (v, some (putTrigger S T r b σ)) := by
  obtain ⟨t1, t2⟩ := C144_exact S T (r - b) (-b) σ
  have hn : ¬ -b ≥ r - b := by simp only [ge_iff_le]; linarith
  have hs : ArithP.exact.sub r b = r - b := rfl
  have ht : BSFl.trigger ArithP.exact.toArith S T (r - b) (-b) σ = BS93.trigger S T (r - b) (-b) σ := t1
  unfold putTrigger
  rw [BSPriceFl.put, BSPriceFl.price, hs, if_neg hn, ht, ← t2]
  by_cases h : K ≥ BS93.trigger S T (r - b) (-b) σ
  · refine ⟨K - S, by rw [if_pos h]; rfl, ?_⟩
    simp only [BS93.approx, if_neg hn, if_pos h]
  · refine ⟨BS93.below K S T (r - b) (-b) σ (BS93.trigger S T (r - b) (-b) σ), ?_, ?_⟩
    · rw [if_neg h]
      exact congrArg some (C145_exact K S T (r - b) (-b) σ _)
    · simp only [BS93.approx, if_neg hn, if_neg h]

/-- **C146.** A put that is held: the computed price is near the value of holding the put at a rate that differs from `r` by a
rounding error of `r - b`. -/
theorem C146_held {e : ℝ} {A : ArithP} (hA : RoundedP e A) (he : 0 ≤ e) (he1 : e ≤ 2⁻¹ ^ 53) {S K T r b σ : ℝ} (hS : 0 < S)
    (hK : 0 < K) (hT : 0 < T) (hσ : 0 < σ) (hr : e * |r - b| < r)
    (h : ∀ r', Near e r b r' → Tame K S T (r' - b) (-b) σ) :
    ∃ r', Near e r b r' ∧ ∃ v, BSPriceFl.put A S K T r b σ = some v ∧
      |v - putHeld S K T r' b σ| ≤ 4e-7 * putSize S K T r' b σ := by
  have hn := bsu_near (r := r) (b := b) hA
  refine ⟨_, hn, ?_⟩
  have ht := h _ hn
  obtain ⟨l, -⟩ := abs_le.1 hn
  have := C145_double hA he he1 hK hS hT hσ (by linarith : -b < A.sub r b + b - b) ht.trigger_pos ht.rad ht.expo ht.gap ht.fall
    ht.trigger ht.coef ht.claims ht.held
  unfold BSPriceFl.put putHeld putSize putTrigger
  rwa [add_sub_cancel_right] at this ⊢

/-- **C146.** If the difference `r - b` is exact (no carry, or `b / 2 ≤ r ≤ 2 b`), the rate is `r` itself. -/
theorem C146_held_exact_rate {e : ℝ} {A : ArithP} (hA : RoundedP e A) (he : 0 ≤ e) (he1 : e ≤ 2⁻¹ ^ 53) {S K T r b σ : ℝ}
    (hS : 0 < S) (hK : 0 < K) (hT : 0 < T) (hσ : 0 < σ) (hr : 0 < r) (hd : A.sub r b = r - b)
    (h : Tame K S T (r - b) (-b) σ) :
    ∃ v, BSPriceFl.put A S K T r b σ = some v ∧ |v - putHeld S K T r b σ| ≤ 4e-7 * putSize S K T r b σ := by
  have := C145_double hA he he1 hK hS hT hσ (by linarith : -b < r - b) h.trigger_pos h.rad h.expo h.gap h.fall
    h.trigger h.coef h.claims h.held
  unfold BSPriceFl.put putHeld putSize putTrigger
  rwa [hd]

/-- **C146.** A put that is exercised: if the strike is above the band of the trigger at every rate a rounding error away, the
price is `K - S` up to one rounding. -/
theorem C146_exercised {e : ℝ} {A : ArithP} (hA : RoundedP e A) (he : 0 ≤ e) (he1 : e < 1) {S K T r b σ : ℝ} (hS : 0 < S)
    (hσ : 0 < σ) (hr : e * |r - b| < r)
    (h : ∀ r', Near e r b r' → radErr e (r' - b) (-b) σ < 1 ∧ expoErr e (r' - b) (-b) σ < 1 ∧ gapErr e S (r' - b) (-b) σ < 1 ∧
      putTrigger S T r' b σ + band e S T (r' - b) (-b) σ ≤ K) :
    ∃ v, BSPriceFl.put A S K T r b σ = some v ∧ |v - (K - S)| ≤ e * |K - S| := by
  have hn := bsu_near (r := r) (b := b) hA
  obtain ⟨h1, h2, h3, h4⟩ := h _ hn
  obtain ⟨l, -⟩ := abs_le.1 hn
  have hb : -b < A.sub r b := by linarith
  unfold putTrigger at h4
  rw [add_sub_cancel_right] at h1 h2 h3 h4
  have ht := C144_trigger hA.toRounded he he1 (T := T) hS hσ hb h1 h2 h3
  obtain ⟨-, u⟩ := abs_le.1 ht
  refine ⟨A.sub K S, ?_, hA.sub _ _⟩
  rw [BSPriceFl.put, BSPriceFl.price, if_neg (not_le.2 hb), if_pos (by simp only [ge_iff_le]; linarith)]

/-- **C146.** With a rate below zero by more than the rounding error the put is priced as a European one. -/
theorem C146_european {e : ℝ} {A : ArithP} (hA : RoundedP e A) {S K T r b σ : ℝ} (hr : r ≤ -(e * |r - b|)) :
    BSPriceFl.put A S K T r b σ = none := by
  have hn := bsu_near (r := r) (b := b) hA
  obtain ⟨-, u⟩ := abs_le.1 hn
  rw [BSPriceFl.put, BSPriceFl.price, if_pos (by simp only [ge_iff_le]; linarith)]

/-- An arithmetic that, like double precision, loses a rate of `1e-20` against a cost of carry of `-0.1`. -/
noncomputable def absorbing : ArithP :=
  { ArithP.exact with sub := fun x y => open Classical in if x = 1e-20 ∧ y = -0.1 then 0.1 else x - y }

/-- **C146.** The gap between the two cases cannot be closed: at a positive rate below the rounding error the rounded put is
priced as a European one, though the exact one is not. -/
theorem C146_gap : RoundedP (2⁻¹ ^ 53) absorbing ∧ ∀ S K T σ,
    BSPriceFl.put absorbing S K T 1e-20 (-0.1) σ = none ∧ ∃ v, BSPriceFl.put ArithP.exact S K T 1e-20 (-0.1) σ = some v := by
  have z : ∀ x : ℝ, |x - x| ≤ 2⁻¹ ^ 53 * |x| := fun x => by rw [sub_self, abs_zero]; positivity
  refine ⟨?_, fun S K T σ => ⟨?_, ?_⟩⟩
  · refine { add := fun _ _ => z _, sub := ?_, mul := fun _ _ => z _, div := fun _ _ => z _, exp := fun x => ?_,
             sqrt := fun x => ?_, pow := fun _ _ => z _, log := fun _ => z _, atan := fun _ => z _,
             lit := fun _ => z _, rpow := fun _ _ => z _ }
    · intro x y
      simp only [absorbing]
      split_ifs with h
      · obtain ⟨rfl, rfl⟩ := h
        norm_num [abs_le]
      · exact z _
    · exact (z (√x)).trans_eq (by rw [abs_of_nonneg (sqrt_nonneg x)])
    · exact (z (rexp x)).trans_eq (by rw [abs_of_pos (exp_pos x)])
  · have : absorbing.sub 1e-20 (-0.1) = 0.1 := if_pos ⟨rfl, rfl⟩
    rw [BSPriceFl.put, BSPriceFl.price, this, if_pos (by norm_num)]
  · obtain ⟨v, hv, -⟩ := C146_exact S K T 1e-20 (-0.1) σ (by norm_num)
    exact ⟨v, hv⟩

/-- Sizes at the parameters of the example. -/
theorem bsu_demo {γ I q : ℝ} (k1 : 0.0399 ≤ q) (k2 : q ≤ 0.0401) (g0 : 0 ≤ γ) (g1 : γ ≤ 1.99) (hI : |log (I / 42)| ≤ 1) (lS : |log 42| ≤ 4)
    (hs : 0.3 ≤ (0.35 : ℝ) * √0.75) :
    rateSize 0.75 γ q (-0.04) 0.35 ≤ 12 ∧ |log 42 * γ| ≤ 12 ∧ reflectSize 42 γ I (-0.04) 0.35 ≤ 12 ∧
      ∀ H, |log (42 / H)| ≤ 1 → argSize 42 0.75 γ H I (-0.04) 0.35 ≤ 30 := by
  refine ⟨?_, ?_, ?_, ?_⟩
  · unfold rateSize
    rw [abs_of_pos (by linarith : 0 < q), abs_of_nonpos (by linarith : γ * -0.04 ≤ 0),
      abs_of_nonneg (by linarith : 0 ≤ 0.5 * γ), abs_of_nonneg g0]
    have : γ * γ ≤ 1.99 * 1.99 := mul_le_mul g1 g1 g0 (by norm_num)
    linarith
  · rw [abs_mul, abs_of_nonneg g0]
    calc |log 42| * γ ≤ 4 * 1.99 := mul_le_mul lS g1 g0 (by norm_num)
      _ ≤ 12 := by norm_num
  · unfold reflectSize
    rw [abs_of_nonneg (by linarith : 0 ≤ 2 * γ), abs_of_neg (by norm_num : (2 * -0.04 / 0.35 ^ 2 : ℝ) < 0)]
    have : -(2 * -0.04 / 0.35 ^ 2 : ℝ) + (2 * γ + 1) ≤ 5.7 := by norm_num; linarith
    have h0 : 0 ≤ -(2 * -0.04 / 0.35 ^ 2 : ℝ) + (2 * γ + 1) := by norm_num; linarith
    calc (|log (I / 42)| + 1) * (-(2 * -0.04 / 0.35 ^ 2 : ℝ) + (2 * γ + 1)) ≤ 2 * 5.7 :=
          mul_le_mul (by linarith) this h0 (by norm_num)
      _ ≤ 12 := by norm_num
  · intro H hH
    unfold argSize
    rw [abs_of_nonneg g0, abs_of_neg (by norm_num : (-0.04 : ℝ) < 0), ← add_div, div_le_iff₀ (by linarith)]
    linarith

/-- The quantities of the example, for rates near 8%. -/
theorem bsu_bounds {q : ℝ} (k1 : 0.0399 ≤ q) (k2 : q ≤ 0.0401) :
    (rad q (-0.04) 0.35 = 6561 / 9604 + 2 * q / 0.35 ^ 2 ∧ √(rad q (-0.04) 0.35) ≤ 1.16) ∧
    (1.97 ≤ expo q (-0.04) 0.35 ∧ expo q (-0.04) 0.35 ≤ 1.99) ∧ low 40 q (-0.04) = 40 ∧
    (80 ≤ high 40 q (-0.04) 0.35 ∧ high 40 q (-0.04) 0.35 ≤ 82) ∧
    (51 ≤ boundary 40 0.75 q (-0.04) 0.35 ∧ boundary 40 0.75 q (-0.04) 0.35 ≤ 82) ∧
    triggerSize 40 0.75 q (-0.04) 0.35 ≤ 4 * 51 := by
  have hr : rad q (-0.04) 0.35 = 6561 / 9604 + 2 * q / 0.35 ^ 2 := by unfold rad; norm_num
  have r1 : 1.15 ≤ √(6561 / 9604 + 2 * q / 0.35 ^ 2) := le_sqrt_of_sq_le (by norm_num; linarith)
  have r2 : √(6561 / 9604 + 2 * q / 0.35 ^ 2) ≤ 1.16 := sqrt_le_iff.2 ⟨by norm_num, by norm_num; linarith⟩
  have hx : expo q (-0.04) 0.35 = 81 / 98 + √(6561 / 9604 + 2 * q / 0.35 ^ 2) := by unfold expo; rw [hr]; norm_num
  have x1 : 1.97 ≤ expo q (-0.04) 0.35 := by rw [hx]; linarith
  have x2 : expo q (-0.04) 0.35 ≤ 1.99 := by rw [hx]; linarith
  have hl : low 40 q (-0.04) = 40 := by
    unfold low
    refine max_eq_left ?_
    rw [div_mul_eq_mul_div, div_le_iff₀ (by linarith)]
    linarith
  have hq : high 40 q (-0.04) 0.35 = expo q (-0.04) 0.35 / (expo q (-0.04) 0.35 - 1) * 40 := rfl
  have q1 : 80 ≤ high 40 q (-0.04) 0.35 := by
    rw [hq, div_mul_eq_mul_div, le_div_iff₀ (by linarith)]; linarith
  have q2 : high 40 q (-0.04) 0.35 ≤ 82 := by
    rw [hq, div_mul_eq_mul_div, div_le_iff₀ (by linarith)]; linarith
  have s1 : 0.86 ≤ √(0.75 : ℝ) := le_sqrt_of_sq_le (by norm_num)
  have s2 : √(0.75 : ℝ) ≤ 0.87 := sqrt_le_iff.2 (by norm_num)
  have hf : 0.5 ≤ fall 40 0.75 q (-0.04) 0.35 := by
    unfold fall
    rw [hl, le_div_iff₀ (by linarith)]
    linarith
  have hE : exp (-fall 40 0.75 q (-0.04) 0.35) ≤ 0.7 := by
    have h1 : exp (-fall 40 0.75 q (-0.04) 0.35) ≤ exp (-0.5) := exp_le_exp.2 (by linarith)
    have h2 := add_one_le_exp (0.5 : ℝ)
    have h3 : exp (-0.5 : ℝ) * exp 0.5 = 1 := by rw [← exp_add]; norm_num
    have h4 := exp_pos (-0.5 : ℝ)
    nlinarith
  have hE0 := exp_pos (-fall 40 0.75 q (-0.04) 0.35)
  have hI1 : 51 ≤ boundary 40 0.75 q (-0.04) 0.35 := by unfold boundary; rw [hl]; nlinarith
  have hI2 : boundary 40 0.75 q (-0.04) 0.35 ≤ 82 := by unfold boundary; rw [hl]; nlinarith
  have hG : triggerSize 40 0.75 q (-0.04) 0.35 ≤ 4 * 51 := by unfold triggerSize; rw [hl]; nlinarith
  exact ⟨⟨hr, by rw [hr]; exact r2⟩, ⟨x1, x2⟩, hl, ⟨q1, q2⟩, ⟨hI1, hI2⟩, hG⟩

/-- Logarithms of the example. -/
theorem bsu_logs {I : ℝ} (hI1 : 51 ≤ I) (hI2 : I ≤ 82) :
    |log 42| ≤ 4 ∧ |log I| ≤ 5 ∧ |log (I / 42)| ≤ 1 ∧ ∀ H, H = I ∨ H = 40 → |log (42 / H)| ≤ 1 := by
  have e1 : (2.7 : ℝ) ≤ exp 1 := by linarith [exp_one_gt_d9]
  have big : ∀ n : ℕ, (2.7 : ℝ) ^ n ≤ exp n := fun n => by
    have := pow_le_pow_left₀ (by norm_num) e1 n
    rwa [← exp_nat_mul, mul_one] at this
  have lS : |log 42| ≤ 4 := by
    rw [abs_of_nonneg (log_nonneg (by norm_num)), log_le_iff_le_exp (by norm_num)]
    have := big 4
    norm_num at this ⊢
    linarith
  have lI : |log I| ≤ 5 := by
    rw [abs_of_nonneg (log_nonneg (by linarith)), log_le_iff_le_exp (by linarith)]
    have := big 5
    norm_num at this ⊢
    linarith
  have lR : ∀ x : ℝ, 1 / 2 ≤ x → x ≤ 2 → |log x| ≤ 1 := fun x h1 h2 => by
    have h3 := log_le_sub_one_of_pos (by linarith : 0 < x)
    have h4 := one_sub_inv_le_log_of_pos (by linarith : 0 < x)
    have h5 : x⁻¹ ≤ 2 := by rw [inv_le_comm₀ (by linarith) (by norm_num)]; linarith
    rw [abs_le]; constructor <;> linarith
  have lIS : |log (I / 42)| ≤ 1 := lR _ (by rw [le_div_iff₀ (by norm_num)]; linarith) (by
    rw [div_le_iff₀ (by norm_num)]; linarith)
  have lSH : ∀ H, H = I ∨ H = 40 → |log (42 / H)| ≤ 1 := by
    rintro H (rfl | rfl)
    · exact lR _ (by rw [le_div_iff₀ (by linarith)]; linarith) (by rw [div_le_iff₀ (by linarith)]; linarith)
    · exact lR _ (by norm_num) (by norm_num)
  exact ⟨lS, lI, lIS, lSH⟩

/-- The transformed put of the example, for rates near 8%. -/
theorem bsu_tame {q : ℝ} (k1 : 0.0399 ≤ q) (k2 : q ≤ 0.0401) : Tame 42 40 0.75 q (-0.04) 0.35 := by
  obtain ⟨⟨hr, r2⟩, ⟨x1, x2⟩, hl, ⟨q1, q2⟩, ⟨hI1, hI2⟩, hG⟩ := bsu_bounds k1 k2
  obtain ⟨lS, lI, lIS, lSH⟩ := bsu_logs hI1 hI2
  have s1 : 0.86 ≤ √(0.75 : ℝ) := le_sqrt_of_sq_le (by norm_num)
  have s2 : √(0.75 : ℝ) ≤ 0.87 := sqrt_le_iff.2 (by norm_num)
  refine Tame.mk (by linarith)
    (by
      unfold condRad
      rw [hr, abs_of_neg (by norm_num), abs_of_pos (by positivity), div_le_iff₀ (by positivity)]
      norm_num
      linarith)
    (by
      unfold condExpo
      rw [abs_of_neg (by norm_num), div_le_iff₀ (by linarith)]
      linarith)
    (by unfold condGap; rw [hl, div_le_iff₀ (by linarith)]; linarith)
    (by
      unfold fallSize
      rw [hl, abs_of_neg (by norm_num), div_le_iff₀ (by linarith)]
      linarith)
    (by linarith)
    (by
      rw [abs_of_pos (by linarith only [x1] : 0 < expo q (-0.04) 0.35)]
      calc _ ≤ (6 : ℝ) * 1.99 := mul_le_mul (by linarith only [lI]) x2 (by linarith only [x1]) (by norm_num)
        _ ≤ 12 := by norm_num)
    ?_ (by linarith)
  intro γ hγ
  have g0 : 0 ≤ γ := by rcases hγ with rfl | rfl | rfl <;> linarith
  have g1 : γ ≤ 1.99 := by rcases hγ with rfl | rfl | rfl <;> linarith
  obtain ⟨u1, u2, u3, u4⟩ := bsu_demo k1 k2 g0 g1 lIS lS (by linarith)
  exact ⟨u1, u2, u3, fun H hH => u4 H (lSH H hH)⟩

/-- A case: a put of 42 on a spot of 40 with a cost of carry of 4%, in an arithmetic that is not exact. -/
theorem C146_example :
    RoundedP (2⁻¹ ^ 53) (biasedP (2⁻¹ ^ 53)) ∧ (biasedP (2⁻¹ ^ 53)).sub 0.08 0.04 ≠ 0.04 ∧
    ∃ r', Near (2⁻¹ ^ 53) 0.08 0.04 r' ∧ ∃ v, BSPriceFl.put (biasedP (2⁻¹ ^ 53)) 40 42 0.75 0.08 0.04 0.35 = some v ∧
      |v - putHeld 40 42 0.75 r' 0.04 0.35| ≤ 4e-7 * putSize 40 42 0.75 r' 0.04 0.35 := by
  obtain ⟨hA, -, -⟩ := C145_example
  refine ⟨hA, ?_, C146_held hA (by positivity) le_rfl (by norm_num) (by norm_num) (by norm_num) (by norm_num) (by norm_num [abs_of_pos])
    fun r' h => ?_⟩
  · change (0.08 - 0.04 : ℝ) * (1 + 2⁻¹ ^ 53) ≠ 0.04
    norm_num
  · obtain ⟨l, u⟩ := abs_le.1 h
    have h1 : (2⁻¹ ^ 53 : ℝ) * |0.08 - 0.04| ≤ 0.0001 := by rw [abs_of_pos (by norm_num)]; norm_num
    exact bsu_tame (by linarith) (by linarith)

/-- Cases of the other two branches: a put of 90 on a spot of 40 is exercised, one at a rate of -1% is European. -/
theorem C146_example_branches :
    (∃ v, BSPriceFl.put (biasedP (2⁻¹ ^ 53)) 40 90 0.75 0.08 0.04 0.35 = some v ∧ |v - (90 - 40)| ≤ 2⁻¹ ^ 53 * |(90 - 40 : ℝ)|) ∧
    BSPriceFl.put (biasedP (2⁻¹ ^ 53)) 40 42 0.75 (-0.01) 0.04 0.35 = none := by
  obtain ⟨hA, -, -⟩ := C145_example
  refine ⟨C146_exercised hA (by positivity) (by norm_num) (by norm_num) (by norm_num) (by norm_num [abs_of_pos]) fun r' h => ?_,
    C146_european hA (by rw [abs_of_neg (by norm_num)]; norm_num)⟩
  obtain ⟨l, u⟩ := abs_le.1 h
  have h1 : (2⁻¹ ^ 53 : ℝ) * |0.08 - 0.04| ≤ 0.0001 := by rw [abs_of_pos (by norm_num)]; norm_num
  have k1 : 0.0399 ≤ r' - 0.04 := by linarith
  have k2 : r' - 0.04 ≤ 0.0401 := by linarith
  obtain ⟨-, -, -, -, ⟨-, hI⟩, hG⟩ := bsu_bounds k1 k2
  have ht := bsu_tame k1 k2
  obtain ⟨b1, b2, b3, b4, -⟩ := C144_double hA.toRounded (by positivity) le_rfl (by norm_num : (0 : ℝ) < 40)
    (by norm_num : (0 : ℝ) < 0.35) (by linarith : -0.04 < r' - 0.04) (ht.rad.trans (by norm_num)) (ht.expo.trans (by norm_num))
    (ht.gap.trans (by norm_num)) (ht.fall.trans (by norm_num))
  exact ⟨b1, b2, b3, by unfold putTrigger; linarith⟩

/-- A case of `C145_every_spot`: a call of 40, for every spot. -/
theorem C145_every_spot_example {S : ℝ} (hS : 0 < S) :
    ∃ v, BSPriceFl.price (biasedP (2⁻¹ ^ 53)) S 40 0.75 0.04 (-0.04) 0.35 = some v ∧
      ((boundary 40 0.75 0.04 (-0.04) 0.35 - 3e-5 ≤ S ∧ |v - (S - 40)| ≤ 2⁻¹ ^ 53 * |S - 40|) ∨
       S < boundary 40 0.75 0.04 (-0.04) 0.35 + 3e-5) := by
  obtain ⟨hA, -, -⟩ := C145_example
  have k1 : (0.0399 : ℝ) ≤ 0.04 := by norm_num
  have k2 : (0.04 : ℝ) ≤ 0.0401 := by norm_num
  obtain ⟨-, -, -, -, ⟨hI, -⟩, hG⟩ := bsu_bounds k1 k2
  have ht := bsu_tame k1 k2
  obtain ⟨b1, b2, b3, b4, -⟩ := C144_double hA.toRounded (by positivity) le_rfl (by norm_num : (0 : ℝ) < 40)
    (by norm_num : (0 : ℝ) < 0.35) (by norm_num : (-0.04 : ℝ) < 0.04) (ht.rad.trans (by norm_num)) (ht.expo.trans (by norm_num))
    (ht.gap.trans (by norm_num)) (ht.fall.trans (by norm_num))
  obtain ⟨v, hv, h⟩ := C145_every_spot hA (by positivity) (by norm_num) hS (by norm_num : (0 : ℝ) < 40)
    (by norm_num : (0 : ℝ) < 0.75) (by norm_num : (0 : ℝ) < 0.35) (by norm_num : (-0.04 : ℝ) < 0.04) b1 b2 b3
    (by linarith) (by rw [div_lt_one (by linarith)]; linarith)
  refine ⟨v, hv, h.imp (fun h => ⟨by linarith [h.1], h.2⟩) fun h => by linarith [h.1]⟩

end Verif.Props
