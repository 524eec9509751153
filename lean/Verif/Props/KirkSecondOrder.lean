import Verif.Props.KirkShape
import Mathlib.Analysis.SpecialFunctions.Exponential

/-!
C106 — Kirk's price is accurate to second order in the volatility of the second asset: replacing the short leg plus the
strike by one lognormal price costs at most `w (1 - w) σ2² t exp (σ2² t / 2)` of their sum, `w` the share of the leg.
-/
namespace Verif.Props
open Verif Verif.Spec Real MeasureTheory ProbabilityTheory Filter Topology

/-! ### The mean square distance of a lognormal price plus a constant from a lognormal price -/

/-- The second moment of the distance, as a series in the variance. -/
theorem mix_moment {w x : ℝ} (hw0 : 0 ≤ w) (hw1 : w ≤ 1) (hx : 0 ≤ x) :
    w ^ 2 * exp x + exp (w ^ 2 * x) - 2 * w * exp (w * x) - (1 - w) ^ 2 ≤ (w * (1 - w) * x) ^ 2 * exp x := by
  have e : ∀ y : ℝ, HasSum (fun n : ℕ => y ^ n / n.factorial) (exp y) := by
    intro y
    rw [exp_eq_exp_ℝ]
    exact NormedSpace.expSeries_div_hasSum_exp y
  have h := (((e x).mul_left (w ^ 2)).add (e (w ^ 2 * x))).sub ((e (w * x)).mul_left (2 * w))
  have h2 := (hasSum_nat_add_iff' 2).2 h
  have h3 := (e x).mul_left ((w * (1 - w) * x) ^ 2)
  have := hasSum_le (fun k => ?_) h2 h3
  · simp only [Finset.sum_range_succ, Finset.sum_range_zero, pow_zero, Nat.factorial, pow_one] at this
    push_cast at this
    linarith
  · have b := one_add_mul_le_pow (a := w - 1) (by linarith) (k + 1)
    rw [add_sub_cancel] at b
    push_cast at b
    have p1 : w ^ (k + 1) ≤ 1 := pow_le_one₀ hw0 hw1
    have q : (1 - w ^ (k + 1)) ^ 2 ≤ ((k + 1) * (1 - w)) ^ 2 := by
      refine pow_le_pow_left₀ (by linarith) ?_ 2
      linarith
    have f : ((k + 2).factorial : ℝ) = (k + 2) * ((k + 1) * k.factorial) := by
      rw [Nat.factorial_succ, Nat.factorial_succ]; push_cast; ring
    have fp : (0 : ℝ) < k.factorial := by exact_mod_cast k.factorial_pos
    have kp : (0 : ℝ) ≤ k := k.cast_nonneg
    have l : w ^ 2 * (x ^ (k + 2) / (k + 2).factorial) + (w ^ 2 * x) ^ (k + 2) / (k + 2).factorial
        - 2 * w * ((w * x) ^ (k + 2) / (k + 2).factorial)
        = w ^ 2 * x ^ (k + 2) * (1 - w ^ (k + 1)) ^ 2 / ((k + 2) * ((k + 1) * k.factorial)) := by
      rw [f]
      field_simp
      ring
    rw [l, div_le_iff₀ (by positivity)]
    have r : (w * (1 - w) * x) ^ 2 * (x ^ k / k.factorial) * ((k + 2) * ((k + 1) * k.factorial))
        = w ^ 2 * x ^ (k + 2) * ((1 - w) ^ 2 * ((k + 2) * (k + 1))) := by
      field_simp
      ring
    rw [r]
    refine mul_le_mul_of_nonneg_left (q.trans ?_) (by positivity)
    rw [mul_pow]
    nlinarith [sq_nonneg (1 - w)]

/-- Distance, in mean, of `w E + (1 - w)` from the lognormal price with the share `w` of the volatility. -/
theorem mix_distance {w s : ℝ} (hw0 : 0 ≤ w) (hw1 : w ≤ 1) :
    ∫ z, |w * exp (s * z - s ^ 2 / 2) + (1 - w) - exp (w * s * z - (w * s) ^ 2 / 2)| ∂gaussianReal 0 1
      ≤ w * (1 - w) * s ^ 2 * exp (s ^ 2 / 2) := by
  have ie : ∀ a c : ℝ, Integrable (fun z => exp (a * z - c)) (gaussianReal 0 1) := by
    intro a c
    simp only [sub_eq_add_neg, exp_add]
    exact (integrable_exp_mul_gaussianReal a).mul_const _
  have me : ∀ a c : ℝ, ∫ z, exp (a * z - c) ∂gaussianReal 0 1 = exp (a ^ 2 / 2 - c) := by
    intro a c
    have h := gauss_tilt a (fun _ => exp (-c))
    simp only [integral_const, probReal_univ, smul_eq_mul, one_mul, ← exp_add] at h
    simpa only [sub_eq_add_neg] using h
  set H : ℝ → ℝ := fun z => w * exp (s * z - s ^ 2 / 2) + (1 - w) - exp (w * s * z - (w * s) ^ 2 / 2) with hH
  have iH : Integrable H (gaussianReal 0 1) :=
    (((ie _ _).const_mul w).add (integrable_const _)).sub (ie _ _)
  have sq : ∀ z, H z ^ 2 = w ^ 2 * exp (2 * s * z - s ^ 2) + (exp (2 * (w * s) * z - (w * s) ^ 2)
      + ((1 - w) ^ 2 + (2 * w * (1 - w) * exp (s * z - s ^ 2 / 2)
      - (2 * w * exp ((s + w * s) * z - (s ^ 2 / 2 + (w * s) ^ 2 / 2))
      + 2 * (1 - w) * exp (w * s * z - (w * s) ^ 2 / 2))))) := by
    intro z
    have a1 : exp (2 * s * z - s ^ 2) = exp (s * z - s ^ 2 / 2) ^ 2 := by rw [← exp_nat_mul]; congr 1; push_cast; ring
    have a2 : exp (2 * (w * s) * z - (w * s) ^ 2) = exp (w * s * z - (w * s) ^ 2 / 2) ^ 2 := by
      rw [← exp_nat_mul]; congr 1; push_cast; ring
    have a3 : exp ((s + w * s) * z - (s ^ 2 / 2 + (w * s) ^ 2 / 2))
        = exp (s * z - s ^ 2 / 2) * exp (w * s * z - (w * s) ^ 2 / 2) := by rw [← exp_add]; congr 1; ring
    rw [a1, a2, a3, hH]
    ring
  have i1 := (ie (2 * s) (s ^ 2)).const_mul (w ^ 2)
  have i2 := ie (2 * (w * s)) ((w * s) ^ 2)
  have i3 : Integrable (fun _ : ℝ => (1 - w) ^ 2) (gaussianReal 0 1) := integrable_const _
  have i4 := (ie s (s ^ 2 / 2)).const_mul (2 * w * (1 - w))
  have i5 := (ie (s + w * s) (s ^ 2 / 2 + (w * s) ^ 2 / 2)).const_mul (2 * w)
  have i6 := (ie (w * s) ((w * s) ^ 2 / 2)).const_mul (2 * (1 - w))
  have i56 := i5.add i6
  have i456 := i4.sub i56
  have i3456 := i3.add i456
  have i26 := i2.add i3456
  simp only [Pi.add_def, Pi.sub_def] at i56 i456 i3456 i26
  have iS : Integrable (fun z => H z ^ 2) (gaussianReal 0 1) := by
    simp only [sq]; exact i1.add i26
  have mS : ∫ z, H z ^ 2 ∂gaussianReal 0 1 ≤ (w * (1 - w) * s ^ 2 * exp (s ^ 2 / 2)) ^ 2 := by
    have m := mix_moment hw0 hw1 (sq_nonneg s)
    have : ∫ z, H z ^ 2 ∂gaussianReal 0 1
        = w ^ 2 * exp (s ^ 2) + exp (w ^ 2 * s ^ 2) - 2 * w * exp (w * s ^ 2) - (1 - w) ^ 2 := by
      simp only [sq]
      rw [integral_add i1 i26, integral_add i2 i3456, integral_add i3 i456, integral_sub i4 i56, integral_add i5 i6,
        integral_const_mul, integral_const_mul, integral_const_mul, integral_const_mul, me, me, me, me, me]
      simp only [integral_const, probReal_univ, smul_eq_mul, one_mul]
      rw [show (2 * s) ^ 2 / 2 - s ^ 2 = s ^ 2 by ring, show (2 * (w * s)) ^ 2 / 2 - (w * s) ^ 2 = w ^ 2 * s ^ 2 by ring,
        show s ^ 2 / 2 - s ^ 2 / 2 = 0 by ring, show (w * s) ^ 2 / 2 - (w * s) ^ 2 / 2 = 0 by ring,
        show (s + w * s) ^ 2 / 2 - (s ^ 2 / 2 + (w * s) ^ 2 / 2) = w * s ^ 2 by ring, exp_zero]
      ring
    rw [this]
    refine m.trans (le_of_eq ?_)
    have : exp (s ^ 2) = exp (s ^ 2 / 2) ^ 2 := by rw [← exp_nat_mul]; congr 1; push_cast; ring
    rw [this]; ring
  have iA : Integrable (fun z => |H z|) (gaussianReal 0 1) := iH.abs
  set m := ∫ z, |H z| ∂gaussianReal 0 1 with hm
  have var : m ^ 2 ≤ ∫ z, H z ^ 2 ∂gaussianReal 0 1 := by
    have h0 : 0 ≤ ∫ z, (H z ^ 2 - 2 * m * |H z| + m ^ 2) ∂gaussianReal 0 1 := by
      refine integral_nonneg fun z => ?_
      show 0 ≤ H z ^ 2 - 2 * m * |H z| + m ^ 2
      rw [← sq_abs]
      nlinarith [sq_nonneg (|H z| - m)]
    have iD := iS.sub (iA.const_mul (2 * m))
    simp only [Pi.sub_def] at iD
    rw [integral_add iD (integrable_const _), integral_sub iS (iA.const_mul _), integral_const_mul,
      integral_const, probReal_univ, one_smul, ← hm] at h0
    linarith
  have h1w : 0 ≤ 1 - w := by linarith
  exact le_of_sq_le_sq (var.trans mS) (by positivity)

/-! ### Accuracy of Kirk's price -/

/-- Kirk's formula with the exact normal distribution. -/
theorem kirk_exact_second (a : Assets) {t r q1 q2 K : ℝ} (h2 : 0 < q2 * a.S2) (hK : 0 < K)
    (ht : 0 < t) (hρ : |a.ρ| ≤ 1) {P2 PK : ℝ} (hP2 : P2 = q2 * a.S2 * exp ((a.b2 - r) * t))
    (hPK : PK = K * exp (-r * t)) :
    |bsCall (q1 * a.S1 * exp ((a.b1 - r) * t)) (P2 + PK) t 0 0 √(ratioVar a.ρ a.σ1 (a.σ2 * (P2 / (P2 + PK))))
      - spreadValue a t r q1 q2 K| ≤ P2 * PK / (P2 + PK) * (a.σ2 ^ 2 * t) * exp (a.σ2 ^ 2 * t / 2) := by
  have p2 : 0 < P2 := by rw [hP2]; positivity
  have pk : 0 < PK := by rw [hPK]; positivity
  have hD : 0 < P2 + PK := by positivity
  set w := P2 / (P2 + PK) with hw
  set a' : Assets := ⟨a.S1, P2 + PK, a.b1, r, a.σ1, a.σ2 * w, a.ρ⟩ with ha'
  have m := margrabe a' ht.le r q1 1 √(ratioVar a.ρ a.σ1 (a.σ2 * w)) (by simpa [ha'] using hD) hρ
    (by rw [sq_sqrt (ratioVar_nonneg hρ _ _)]; rfl)
  rw [bsCall_pv] at m
  have e1 : a'.value t r (fun x y => max (q1 * x - 1 * y) 0)
      = bsCall (q1 * a.S1 * exp ((a.b1 - r) * t)) (P2 + PK) t 0 0 √(ratioVar a.ρ a.σ1 (a.σ2 * w)) := by
    rw [m]
    congr 1
    · simp only [ha']; congr 2; ring
    · simp [ha']
  rw [← e1]
  have ht2 : √t ^ 2 = t := sq_sqrt ht.le
  -- the two payoffs
  let H : ℝ → ℝ := fun n => w * exp (a.σ2 * √t * n - (a.σ2 * √t) ^ 2 / 2) + (1 - w)
    - exp (w * (a.σ2 * √t) * n - (w * (a.σ2 * √t)) ^ 2 / 2)
  have hHc : Continuous fun n => |H n| := by simp only [H]; fun_prop
  have w1 : 1 - w = PK / (P2 + PK) := by rw [hw]; field_simp; ring
  have diff : ∀ z : ℝ × ℝ, exp (-r * t) * (q2 * a.second t z + K - a'.second t z)
      = (P2 + PK) * H (a.ρ * z.1 + √(1 - a.ρ ^ 2) * z.2) := by
    intro z
    simp only [H, w1, Assets.second, ha']
    generalize a.ρ * z.1 + √(1 - a.ρ ^ 2) * z.2 = n
    have x1 : exp ((a.b2 - a.σ2 ^ 2 / 2) * t + a.σ2 * √t * n) * exp (-r * t)
        = exp ((a.b2 - r) * t) * exp (a.σ2 * √t * n - (a.σ2 * √t) ^ 2 / 2) := by
      rw [← exp_add, ← exp_add]; congr 1; rw [mul_pow, ht2]; ring
    have x2 : exp ((r - (a.σ2 * w) ^ 2 / 2) * t + a.σ2 * w * √t * n) * exp (-r * t)
        = exp (w * (a.σ2 * √t) * n - (w * (a.σ2 * √t)) ^ 2 / 2) := by
      rw [← exp_add]; congr 1; linear_combination (a.σ2 ^ 2 * w ^ 2 / 2) * ht2
    have x3 : (P2 + PK) * w = P2 := by rw [hw]; field_simp
    have x4 : (P2 + PK) * (PK / (P2 + PK)) = PK := by field_simp
    have x5 : P2 * exp (a.σ2 * √t * n - (a.σ2 * √t) ^ 2 / 2)
        = q2 * a.S2 * (exp ((a.b2 - a.σ2 ^ 2 / 2) * t + a.σ2 * √t * n) * exp (-r * t)) := by
      rw [x1, hP2]; ring
    rw [← x2]
    linear_combination (-exp (a.σ2 * √t * n - (a.σ2 * √t) ^ 2 / 2)) * x3 - x4 - x5 - hPK
  have lin : ∫ z : ℝ × ℝ, |H (a.ρ * z.1 + √(1 - a.ρ ^ 2) * z.2)| ∂((gaussianReal 0 1).prod (gaussianReal 0 1))
      = ∫ n, |H n| ∂gaussianReal 0 1 := by
    have h := integral_gauss_linear (α := a.ρ) (β := √(1 - a.ρ ^ 2)) (s := 1) (g := fun n => |H n|)
      (by rw [sq_sqrt (by have := (sq_le_one_iff_abs_le_one a.ρ).2 hρ; linarith)]; ring) hHc
    simpa only [one_mul] using h
  have hw0 : 0 ≤ w := by positivity
  have hw1 : w ≤ 1 := by have : 0 < PK / (P2 + PK) := by positivity
                         linarith
  have dist := mix_distance (s := a.σ2 * √t) hw0 hw1
  -- integrability
  have is1 : Integrable (fun z => max (q1 * a'.first t z - 1 * a'.second t z) 0)
      ((gaussianReal 0 1).prod (gaussianReal 0 1)) := by
    simpa using spread_integrable a' t q1 1 0
  have is2 := spread_integrable a t q1 q2 K
  have id : Integrable (fun z => |q2 * a.second t z + K - a'.second t z|)
      ((gaussianReal 0 1).prod (gaussianReal 0 1)) :=
    ((((second_integrable a t).const_mul q2).add (integrable_const K)).sub (second_integrable a' t)).abs
  have step : |a'.value t r (fun x y => max (q1 * x - 1 * y) 0) - spreadValue a t r q1 q2 K|
      ≤ exp (-r * t) * ∫ z, |q2 * a.second t z + K - a'.second t z| ∂((gaussianReal 0 1).prod (gaussianReal 0 1)) := by
    unfold spreadValue Assets.value
    rw [← mul_sub, ← integral_sub is1 is2, abs_mul, abs_of_pos (exp_pos _)]
    refine mul_le_mul_of_nonneg_left ((abs_integral_le_integral_abs).trans ?_) (exp_pos _).le
    refine integral_mono (is1.sub is2).abs id fun z => ?_
    have hf : a'.first t z = a.first t z := rfl
    show |max (q1 * a'.first t z - 1 * a'.second t z) 0 - max (q1 * a.first t z - q2 * a.second t z - K) 0| ≤ _
    rw [hf]
    refine (abs_max_sub_max_le_abs _ _ _).trans (le_of_eq ?_)
    congr 1; ring
  refine step.trans ?_
  rw [← integral_const_mul]
  have e2 : ∀ z, exp (-r * t) * |q2 * a.second t z + K - a'.second t z|
      = (P2 + PK) * |H (a.ρ * z.1 + √(1 - a.ρ ^ 2) * z.2)| := by
    intro z
    have := congrArg abs (diff z)
    rwa [abs_mul, abs_mul, abs_of_pos (exp_pos _), abs_of_pos hD] at this
  simp only [e2]
  rw [integral_const_mul, lin]
  refine (mul_le_mul_of_nonneg_left dist hD.le).trans (le_of_eq ?_)
  rw [w1, mul_pow, ht2, hw]
  field_simp

/-- **C106 (accuracy, second order).** The coded call and put are within `P2 PK / (P2 + PK) · σ2² t · exp (σ2² t / 2)` of
the values of the two contracts for two correlated lognormal assets, apart from the error of the coded normal
distribution; `P2` and `PK` are the present values of the second leg and of the strike. -/
theorem C106_accuracy_second (S1 S2 K t r b1 b2 σ1 σ2 ρ Q1 Q2 P1 P2 PK : ℝ) (h1 : 0 < Q1 * S1) (h2 : 0 < Q2 * S2) (hK : 0 < K)
    (ht : 0 < t) (hρ : |ρ| ≤ 1) (hP1 : P1 = Q1 * S1 * exp ((b1 - r) * t))
    (hP2 : P2 = Q2 * S2 * exp ((b2 - r) * t)) (hPK : PK = K * exp (-r * t))
    (hv : 0 < σ1 ^ 2 + (σ2 * (P2 / (P2 + PK))) ^ 2 - 2 * ρ * σ1 * (σ2 * (P2 / (P2 + PK)))) :
    ∃ a c p, kirkCls.construct (kirkKw S1 S2 K t r b1 b2 σ1 σ2 ρ Q1 Q2) = (a, none) ∧
      KirkClass.call.run a = .ok (.num c) ∧ KirkClass.put.run a = .ok (.num p) ∧
      |c - (⟨S1, S2, b1, b2, σ1, σ2, ρ⟩ : Assets).value t r (fun x y => max (Q1 * x - Q2 * y - K) 0)|
        ≤ P2 * PK / (P2 + PK) * (σ2 ^ 2 * t) * exp (σ2 ^ 2 * t / 2) + 7.5e-8 * (P1 + P2 + PK) ∧
      |p - (⟨S1, S2, b1, b2, σ1, σ2, ρ⟩ : Assets).value t r (fun x y => max (K - (Q1 * x - Q2 * y)) 0)|
        ≤ P2 * PK / (P2 + PK) * (σ2 ^ 2 * t) * exp (σ2 ^ 2 * t / 2) + 7.5e-8 * (P1 + P2 + PK) := by
  have p1 : 0 < P1 := by rw [hP1]; positivity
  have p2 : 0 < P2 := by rw [hP2]; positivity
  have pk : 0 < PK := by rw [hPK]; positivity
  obtain ⟨a, h, hs, -⟩ := kirk_prices S1 S2 K t r b1 b2 σ1 σ2 ρ Q1 Q2
  obtain ⟨a', s, c, p, h', hs', hc, hp, gc, -⟩ := C42_is_gbs S1 S2 K t r b1 b2 σ1 σ2 ρ Q1 Q2 (by rw [← hP2, ← hPK]; positivity)
  obtain ⟨a'', c', p', h'', hc'', hp'', par⟩ := C42_parity S1 S2 K t r b1 b2 σ1 σ2 ρ Q1 Q2 (by rw [← hP2, ← hPK]; positivity)
  obtain rfl : a = a' := by have := h.symm.trans h'; simpa using this
  obtain rfl : a = a'' := by have := h.symm.trans h''; simpa using this
  obtain rfl : c = c' := by have := hc.symm.trans hc''; simpa using this
  obtain rfl : p = p' := by have := hp.symm.trans hp''; simpa using this
  have es : s = √(ratioVar ρ σ1 (σ2 * (P2 / (P2 + PK)))) := by
    have := hs'.symm.trans hs
    rw [share, shortLeg, ← hP2, ← hPK] at this
    simpa using this
  rw [← hP1, ← hP2, ← hPK] at gc par
  have spos : 0 < s := by rw [es]; exact sqrt_pos.2 hv
  obtain ⟨x, hx, hxe⟩ := C02_price_accuracy (S := P1) (K := P2 + PK) (t := t) (σ := s) ⟨p1, by positivity, ht, spos⟩ 0 0 true
  obtain rfl : c = x := by have := gc.symm.trans hx; simpa using this
  simp only [bsPrice, if_true] at hxe
  have ex := kirk_exact_second ⟨S1, S2, b1, b2, σ1, σ2, ρ⟩ (r := r) (q1 := Q1) h2 hK ht hρ hP2 hPK
  simp only at ex
  rw [← hP1, ← es] at ex
  have z1 : exp ((0 - 0) * t) = 1 := by simp
  have z2 : exp (-0 * t) = 1 := by simp
  rw [z1, z2] at hxe
  have par' := spread_parity ⟨S1, S2, b1, b2, σ1, σ2, ρ⟩ t r Q1 Q2 K ht.le hρ
  simp only at par'
  rw [← hP1, ← hP2, ← hPK] at par'
  have main : |c - spreadValue ⟨S1, S2, b1, b2, σ1, σ2, ρ⟩ t r Q1 Q2 K|
      ≤ P2 * PK / (P2 + PK) * (σ2 ^ 2 * t) * exp (σ2 ^ 2 * t / 2) + 7.5e-8 * (P1 + P2 + PK) := by
    have q := abs_add_le (c - bsCall P1 (P2 + PK) t 0 0 s) (bsCall P1 (P2 + PK) t 0 0 s
      - spreadValue ⟨S1, S2, b1, b2, σ1, σ2, ρ⟩ t r Q1 Q2 K)
    rw [sub_add_sub_cancel] at q
    linarith
  refine ⟨a, c, p, h, hc, hp, main, ?_⟩
  have : p - spreadPut ⟨S1, S2, b1, b2, σ1, σ2, ρ⟩ t r Q1 Q2 K
      = c - spreadValue ⟨S1, S2, b1, b2, σ1, σ2, ρ⟩ t r Q1 Q2 K := by linarith
  exact (congrArg abs this).trans_le main

/-- Non-vacuity: the coded price of the option of the docstring, worth several units, is within two cents of the value. -/
theorem C106_second_example : ∃ a c p,
    kirkCls.construct (kirkKw 122 120 3 (1 / 10) 0.1 0 0 0.2 0.25 0.5 1 1) = (a, none) ∧
    KirkClass.call.run a = .ok (.num c) ∧ KirkClass.put.run a = .ok (.num p) ∧
    |c - (⟨122, 120, 0, 0, 0.2, 0.25, 0.5⟩ : Assets).value (1 / 10) 0.1 (fun x y => max (1 * x - 1 * y - 3) 0)| ≤ 0.02 := by
  have he0 := exp_pos (-0.1 * (1 / 10) : ℝ)
  have he : exp (-0.1 * (1 / 10) : ℝ) ≤ 1 := exp_le_one_iff.2 (by norm_num)
  have ew : 1 * 120 * exp ((0 - 0.1) * (1 / 10)) / (1 * 120 * exp ((0 - 0.1) * (1 / 10)) + 3 * exp (-0.1 * (1 / 10)))
      = (120 / 123 : ℝ) := by
    rw [zero_sub]; field_simp; norm_num
  obtain ⟨a, c, p, h, hc, hp, e, -⟩ := C106_accuracy_second 122 120 3 (1 / 10) 0.1 0 0 0.2 0.25 0.5 1 1 _ _ _ (by norm_num)
    (by norm_num) (by norm_num) (by norm_num) (by norm_num) rfl rfl rfl (by rw [ew]; norm_num)
  refine ⟨a, c, p, h, hc, hp, e.trans ?_⟩
  have hx : exp (0.25 ^ 2 * (1 / 10) / 2 : ℝ) ≤ 1.01 := by
    have := exp_bound_div_one_sub_of_interval (x := 0.25 ^ 2 * (1 / 10) / 2) (by norm_num) (by norm_num)
    refine this.trans (by norm_num)
  rw [zero_sub]
  generalize exp (-0.1 * (1 / 10) : ℝ) = u at he he0 ⊢
  have e1 : 1 * 120 * u * (3 * u) / (1 * 120 * u + 3 * u) = 360 / 123 * u := by field_simp; norm_num
  rw [e1]
  have : 360 / 123 * u * (0.25 ^ 2 * (1 / 10)) * exp (0.25 ^ 2 * (1 / 10) / 2)
      ≤ 360 / 123 * 1 * (0.25 ^ 2 * (1 / 10)) * 1.01 := by
    refine mul_le_mul ?_ hx (exp_pos _).le (by norm_num)
    nlinarith
  refine (add_le_add this (mul_le_mul_of_nonneg_left (show _ ≤ (245 : ℝ) by linarith) (by norm_num))).trans (by norm_num)

end Verif.Props
