import Verif.Props.KirkShape
import Verif.Lemmas.RGWValue

/-!
C118 — the direction in which Kirk's spread price moves with the two legs and with their correlation.
-/
namespace Verif.Props
open Verif Verif.Spec Real MeasureTheory ProbabilityTheory

/-- Prices of a `SpreadApproxOption` in terms of present values. -/
theorem kirk_pv {S1 S2 K t r b1 b2 σ1 σ2 ρ Q1 Q2 P1 P2 PK : ℝ} (h1 : 0 < Q1 * S1) (ht : 0 < t)
    (hP1 : P1 = Q1 * S1 * exp ((b1 - r) * t)) (hP2 : P2 = Q2 * S2 * exp ((b2 - r) * t)) (hPK : PK = K * exp (-r * t))
    (hD : 0 < P2 + PK) (hv : 0 < ratioVar ρ σ1 (σ2 * (P2 / (P2 + PK)))) :
    ∃ a c p, kirkCls.construct (kirkKw S1 S2 K t r b1 b2 σ1 σ2 ρ Q1 Q2) = (a, none) ∧
      KirkClass.call.run a = .ok (.num c) ∧ KirkClass.put.run a = .ok (.num p) ∧ c - p = P1 - (P2 + PK) ∧
      |c - bsCall P1 (P2 + PK) t 0 0 √(ratioVar ρ σ1 (σ2 * (P2 / (P2 + PK))))| ≤ 7.5e-8 * (P1 + (P2 + PK)) := by
  have p1 : 0 < P1 := by rw [hP1]; positivity
  obtain ⟨a, h, hs, -⟩ := kirk_prices S1 S2 K t r b1 b2 σ1 σ2 ρ Q1 Q2
  obtain ⟨a', s, c, p, h', hs', hc, hp, gc, -⟩ := C42_is_gbs S1 S2 K t r b1 b2 σ1 σ2 ρ Q1 Q2 (by rw [← hP2, ← hPK]; exact hD)
  obtain ⟨a'', c', p', h'', hc'', hp'', par⟩ := C42_parity S1 S2 K t r b1 b2 σ1 σ2 ρ Q1 Q2 (by rw [← hP2, ← hPK]; exact hD.ne')
  obtain rfl : a = a' := by have := h.symm.trans h'; simpa using this
  obtain rfl : a = a'' := by have := h.symm.trans h''; simpa using this
  obtain rfl : c = c' := by have := hc.symm.trans hc''; simpa using this
  obtain rfl : p = p' := by have := hp.symm.trans hp''; simpa using this
  have es : s = √(ratioVar ρ σ1 (σ2 * (P2 / (P2 + PK)))) := by
    have := hs'.symm.trans hs
    rw [share, shortLeg, ← hP2, ← hPK] at this
    simpa using this
  rw [← hP1, ← hP2, ← hPK] at gc par
  obtain ⟨x, hx, hxe⟩ := C02_price_accuracy (S := P1) (K := P2 + PK) (t := t) (σ := s)
    ⟨p1, hD, ht, by rw [es]; exact sqrt_pos.2 hv⟩ 0 0 true
  obtain rfl : c = x := by have := gc.symm.trans hx; simpa using this
  simp only [bsPrice, if_true] at hxe
  rw [show exp ((0 - 0) * t) = 1 by simp, show exp (-0 * t) = 1 by simp, mul_one, mul_one, es] at hxe
  exact ⟨a, c, p, h, hc, hp, by linarith, hxe⟩

/-- **C118 (first leg).** When the first asset becomes dearer the call does not fall and the put does not rise, apart from
the error of the coded normal distribution. -/
theorem C118_first (S1 S1' S2 K t r b1 b2 σ1 σ2 ρ Q1 Q2 P1 P2 PK : ℝ) (hQ : 0 < Q1) (h1 : 0 < S1) (hS : S1 ≤ S1') (ht : 0 < t)
    (hP1 : P1 = Q1 * S1' * exp ((b1 - r) * t)) (hP2 : P2 = Q2 * S2 * exp ((b2 - r) * t)) (hPK : PK = K * exp (-r * t))
    (hD : 0 < P2 + PK)
    (hv : 0 < σ1 ^ 2 + (σ2 * (P2 / (P2 + PK))) ^ 2 - 2 * ρ * σ1 * (σ2 * (P2 / (P2 + PK)))) :
    ∃ a c p a' c' p', kirkCls.construct (kirkKw S1 S2 K t r b1 b2 σ1 σ2 ρ Q1 Q2) = (a, none) ∧
      kirkCls.construct (kirkKw S1' S2 K t r b1 b2 σ1 σ2 ρ Q1 Q2) = (a', none) ∧
      KirkClass.call.run a = .ok (.num c) ∧ KirkClass.put.run a = .ok (.num p) ∧
      KirkClass.call.run a' = .ok (.num c') ∧ KirkClass.put.run a' = .ok (.num p') ∧
      c ≤ c' + 1.5e-7 * (P1 + P2 + PK) ∧ p' ≤ p + 1.5e-7 * (P1 + P2 + PK) := by
  obtain ⟨a, c, p, k1, k2, k3, k4, k5⟩ := kirk_pv (S1 := S1) (σ1 := σ1) (σ2 := σ2) (ρ := ρ) (b1 := b1) (mul_pos hQ h1) ht rfl hP2 hPK hD hv
  obtain ⟨a', c', p', l1, l2, l3, l4, l5⟩ := kirk_pv (S1 := S1') (σ1 := σ1) (σ2 := σ2) (ρ := ρ) (mul_pos hQ (h1.trans_le hS)) ht hP1 hP2 hPK hD hv
  refine ⟨a, c, p, a', c', p', k1, l1, k2, k3, l2, l3, ?_⟩
  have hle : Q1 * S1 * exp ((b1 - r) * t) ≤ P1 := by rw [hP1]; gcongr
  set s := √(ratioVar ρ σ1 (σ2 * (P2 / (P2 + PK))))
  obtain ⟨m1, m2⟩ := bsCall_lipschitz (K := P2 + PK) (r := 0) (σ := s) ht.le hle
  have e1 := abs_le.1 k5
  have e2 := abs_le.1 l5
  constructor <;> norm_num at * <;> linarith

/-- **C118 (correlation).** A higher correlation does not raise call or put, apart from the error of the coded normal
distribution. -/
theorem C118_correlation (S1 S2 K t r b1 b2 σ1 σ2 ρ ρ' Q1 Q2 P1 P2 PK : ℝ) (h1 : 0 < Q1 * S1) (h2 : 0 ≤ P2) (ht : 0 < t)
    (hσ1 : 0 ≤ σ1) (hσ2 : 0 ≤ σ2) (hρ : ρ ≤ ρ')
    (hP1 : P1 = Q1 * S1 * exp ((b1 - r) * t)) (hP2 : P2 = Q2 * S2 * exp ((b2 - r) * t)) (hPK : PK = K * exp (-r * t))
    (hD : 0 < P2 + PK)
    (hv : 0 < σ1 ^ 2 + (σ2 * (P2 / (P2 + PK))) ^ 2 - 2 * ρ' * σ1 * (σ2 * (P2 / (P2 + PK)))) :
    ∃ a c p a' c' p', kirkCls.construct (kirkKw S1 S2 K t r b1 b2 σ1 σ2 ρ Q1 Q2) = (a, none) ∧
      kirkCls.construct (kirkKw S1 S2 K t r b1 b2 σ1 σ2 ρ' Q1 Q2) = (a', none) ∧
      KirkClass.call.run a = .ok (.num c) ∧ KirkClass.put.run a = .ok (.num p) ∧
      KirkClass.call.run a' = .ok (.num c') ∧ KirkClass.put.run a' = .ok (.num p') ∧
      c' ≤ c + 1.5e-7 * (P1 + P2 + PK) ∧ p' ≤ p + 1.5e-7 * (P1 + P2 + PK) := by
  have hy : 0 ≤ σ2 * (P2 / (P2 + PK)) := by positivity
  have hV : ratioVar ρ' σ1 (σ2 * (P2 / (P2 + PK))) ≤ ratioVar ρ σ1 (σ2 * (P2 / (P2 + PK))) := by
    have := mul_le_mul_of_nonneg_right hρ (mul_nonneg hσ1 hy)
    unfold ratioVar
    linarith
  have hv' : 0 < ratioVar ρ' σ1 (σ2 * (P2 / (P2 + PK))) := hv
  have p1 : 0 < P1 := by rw [hP1]; positivity
  obtain ⟨a, c, p, k1, k2, k3, k4, k5⟩ := kirk_pv h1 ht hP1 hP2 hPK hD (hv'.trans_le hV)
  obtain ⟨a', c', p', l1, l2, l3, l4, l5⟩ := kirk_pv h1 ht hP1 hP2 hPK hD hv'
  refine ⟨a, c, p, a', c', p', k1, l1, k2, k3, l2, l3, ?_⟩
  have m := (bsCall_strictMono p1 hD ht 0 0).monotoneOn (sqrt_pos.2 hv') (sqrt_pos.2 (hv'.trans_le hV)) (sqrt_le_sqrt hV)
  have e1 := abs_le.1 k5
  have e2 := abs_le.1 l5
  constructor <;> norm_num at * <;> linarith

/-- **C118 (second leg).** When the second asset becomes dearer, from `P2` to `P2'` in present value: the call does not rise
if the correlation term dominates at the higher price, `σ2 w' ≤ ρ σ1` with `w' = P2'/(P2' + PK)`; the put does not fall if
it does not dominate at the lower price, `ρ σ1 ≤ σ2 w`. Both apart from the error of the coded normal distribution. -/
theorem C118_second_partial (S1 S2 S2' K t r b1 b2 σ1 σ2 ρ Q1 Q2 P1 P2 P2' PK : ℝ) (h1 : 0 < Q1 * S1) (hQ : 0 < Q2) (h2 : 0 < S2)
    (hS : S2 ≤ S2') (hK : 0 ≤ K) (ht : 0 < t) (hσ2 : 0 ≤ σ2)
    (hP1 : P1 = Q1 * S1 * exp ((b1 - r) * t)) (hP2 : P2 = Q2 * S2 * exp ((b2 - r) * t))
    (hP2' : P2' = Q2 * S2' * exp ((b2 - r) * t)) (hPK : PK = K * exp (-r * t))
    (hv : 0 < σ1 ^ 2 + (σ2 * (P2 / (P2 + PK))) ^ 2 - 2 * ρ * σ1 * (σ2 * (P2 / (P2 + PK))))
    (hv' : 0 < σ1 ^ 2 + (σ2 * (P2' / (P2' + PK))) ^ 2 - 2 * ρ * σ1 * (σ2 * (P2' / (P2' + PK)))) :
    ∃ a c p a' c' p', kirkCls.construct (kirkKw S1 S2 K t r b1 b2 σ1 σ2 ρ Q1 Q2) = (a, none) ∧
      kirkCls.construct (kirkKw S1 S2' K t r b1 b2 σ1 σ2 ρ Q1 Q2) = (a', none) ∧
      KirkClass.call.run a = .ok (.num c) ∧ KirkClass.put.run a = .ok (.num p) ∧
      KirkClass.call.run a' = .ok (.num c') ∧ KirkClass.put.run a' = .ok (.num p') ∧
      (σ2 * (P2' / (P2' + PK)) ≤ ρ * σ1 → c' ≤ c + 1.5e-7 * (P1 + P2' + PK)) ∧
      (ρ * σ1 ≤ σ2 * (P2 / (P2 + PK)) → p ≤ p' + 1.5e-7 * (P1 + P2' + PK)) := by
  have p1 : 0 < P1 := by rw [hP1]; positivity
  have p2 : 0 < P2 := by rw [hP2]; positivity
  have pk : 0 ≤ PK := by rw [hPK]; positivity
  have hle : P2 ≤ P2' := by rw [hP2, hP2']; gcongr
  have hD : 0 < P2 + PK := by positivity
  have hD' : 0 < P2' + PK := by linarith
  obtain ⟨a, c, p, k1, k2, k3, k4, k5⟩ := kirk_pv h1 ht hP1 hP2 hPK hD hv
  obtain ⟨a', c', p', l1, l2, l3, l4, l5⟩ := kirk_pv h1 ht hP1 hP2' hPK hD' hv'
  refine ⟨a, c, p, a', c', p', k1, l1, k2, k3, l2, l3, ?_⟩
  have hy : σ2 * (P2 / (P2 + PK)) ≤ σ2 * (P2' / (P2' + PK)) := by
    refine mul_le_mul_of_nonneg_left ?_ hσ2
    rw [div_le_div_iff₀ hD hD']
    nlinarith
  set y := σ2 * (P2 / (P2 + PK))
  set y' := σ2 * (P2' / (P2' + PK))
  have e1 := abs_le.1 k5
  have e2 := abs_le.1 l5
  have hV : 0 < ratioVar ρ σ1 y := hv
  have hV' : 0 < ratioVar ρ σ1 y' := hv'
  have hDD : P2 + PK ≤ P2' + PK := by linarith
  constructor
  · intro hc
    have m1 := (bsCall_strike (N := P1) (t := t) (σ := √(ratioVar ρ σ1 y')) hDD).1
    have hVV : ratioVar ρ σ1 y' ≤ ratioVar ρ σ1 y := by
      unfold ratioVar
      nlinarith
    have m2 : bsCall P1 (P2 + PK) t 0 0 √(ratioVar ρ σ1 y') ≤ bsCall P1 (P2 + PK) t 0 0 √(ratioVar ρ σ1 y) :=
      (bsCall_strictMono p1 hD ht 0 0).monotoneOn (sqrt_pos.2 hV') (sqrt_pos.2 hV) (sqrt_le_sqrt hVV)
    clear_value y y'
    norm_num at *; linarith
  · intro hp
    have m1 := (bsCall_strike (N := P1) (t := t) (σ := √(ratioVar ρ σ1 y)) hDD).2
    have hVV : ratioVar ρ σ1 y ≤ ratioVar ρ σ1 y' := by
      unfold ratioVar
      nlinarith
    have m2 : bsCall P1 (P2' + PK) t 0 0 √(ratioVar ρ σ1 y) ≤ bsCall P1 (P2' + PK) t 0 0 √(ratioVar ρ σ1 y') :=
      (bsCall_strictMono p1 hD' ht 0 0).monotoneOn (sqrt_pos.2 hV) (sqrt_pos.2 hV') (sqrt_le_sqrt hVV)
    clear_value y y'
    norm_num at *; linarith

/-- The value of the spread call falls as the second asset becomes dearer. -/
theorem spreadValue_second (a : Assets) {S2' : ℝ} (t r q1 q2 K : ℝ) (hq : 0 ≤ q2) (h : a.S2 ≤ S2') :
    spreadValue { a with S2 := S2' } t r q1 q2 K ≤ spreadValue a t r q1 q2 K := by
  unfold spreadValue Assets.value
  refine mul_le_mul_of_nonneg_left (integral_mono (spread_integrable _ _ _ _ _) (spread_integrable _ _ _ _ _) fun z => ?_) (exp_pos _).le
  refine max_le_max ?_ le_rfl
  have : a.second t z ≤ ({ a with S2 := S2' } : Assets).second t z := by
    simp only [Assets.second]
    exact mul_le_mul_of_nonneg_right h (exp_pos _).le
  have e : ({ a with S2 := S2' } : Assets).first t z = a.first t z := rfl
  rw [e]
  nlinarith

/-- The spread call is worth at most the call on the first leg alone. -/
theorem spreadValue_le_one (a : Assets) (t r q1 q2 K : ℝ) (h2 : 0 ≤ q2 * a.S2) :
    spreadValue a t r q1 q2 K ≤ spreadValue a t r q1 0 K := by
  unfold spreadValue Assets.value
  refine mul_le_mul_of_nonneg_left (integral_mono (spread_integrable _ _ _ _ _) (spread_integrable _ _ _ _ _) fun z => ?_) (exp_pos _).le
  refine max_le_max ?_ le_rfl
  have : 0 ≤ q2 * a.second t z := by
    simp only [Assets.second, ← mul_assoc]
    exact mul_nonneg h2 (exp_pos _).le
  linarith

theorem Φ_ge_26 {x : ℝ} (hx : -0.26 ≤ x) : 0.396 ≤ Φ x := by
  refine le_trans ?_ (Φ_strictMono.monotone hx)
  have h : Φ 0 - Φ (-0.26) ≤ 0.39895 * (0 - (-0.26)) := by
    refine Convex.image_sub_le_mul_sub_of_deriv_le convex_univ
      (fun y _ => (hasDerivAt_Φ y).continuousAt.continuousWithinAt)
      (fun y _ => (hasDerivAt_Φ y).differentiableAt.differentiableWithinAt) (fun y _ => ?_) _ (Set.mem_univ _) _ (Set.mem_univ _)
      (by norm_num)
    rw [(hasDerivAt_Φ y).deriv]; exact CNDError.φ_le y
  rw [Φ_zero] at h
  norm_num at h ⊢
  linarith

/-- **C118 (second leg), refuted.** The call on the spread is worth less when the second asset is dearer, but the coded
price can rise: with the first leg worth as much as the strike, `σ1 √t ≤ 0.05`, `σ2 √t = 2` and any correlation
other than ±1, it rises from
less than 4% to more than 9% of the strike when the second leg rises from 1% of the strike to the strike itself. -/
theorem C118_second_fails (S1 S2 K t r b1 b2 σ1 σ2 ρ Q1 Q2 : ℝ) (hK : 0 < K) (ht : 0 < t) (hQ : 0 < Q2)
    (h1 : Q1 * S1 * exp (b1 * t) = K) (h2 : Q2 * S2 * exp (b2 * t) = 0.01 * K)
    (hσ1 : 0 ≤ σ1) (hv1 : σ1 * √t ≤ 0.05) (hv2 : σ2 * √t = 2) (hρ' : |ρ| < 1) :
    (⟨S1, 100 * S2, b1, b2, σ1, σ2, ρ⟩ : Assets).value t r (fun x y => max (Q1 * x - Q2 * y - K) 0)
      ≤ (⟨S1, S2, b1, b2, σ1, σ2, ρ⟩ : Assets).value t r (fun x y => max (Q1 * x - Q2 * y - K) 0) ∧
    ∃ a c a' c', kirkCls.construct (kirkKw S1 S2 K t r b1 b2 σ1 σ2 ρ Q1 Q2) = (a, none) ∧
      kirkCls.construct (kirkKw S1 (100 * S2) K t r b1 b2 σ1 σ2 ρ Q1 Q2) = (a', none) ∧
      KirkClass.call.run a = .ok (.num c) ∧ KirkClass.call.run a' = .ok (.num c') ∧
      c < 0.04 * (K * exp (-r * t)) ∧ 0.09 * (K * exp (-r * t)) < c' := by
  have hρ := hρ'.le
  have hst := sqrt_pos.2 ht
  have hσ2 : 0 < σ2 := by by_contra h; rw [not_lt] at h; nlinarith
  have hX : 0 < K * exp (-r * t) := by positivity
  have ee : ∀ x b y, x * exp (b * t) = y → x * exp ((b - r) * t) = y * exp (-r * t) := by
    intro x b y h
    rw [← h, show (b - r) * t = b * t + -r * t by ring, exp_add]; ring
  have P1 := ee _ _ _ h1
  have P2 := ee _ _ _ h2
  have P2' : Q2 * (100 * S2) * exp ((b2 - r) * t) = K * exp (-r * t) := by
    rw [show Q2 * (100 * S2) * exp ((b2 - r) * t) = 100 * (Q2 * S2 * exp ((b2 - r) * t)) by ring, P2]; ring
  have h1' : 0 < Q1 * S1 := by
    by_contra h; rw [not_lt] at h; nlinarith [exp_pos (b1 * t)]
  have h2' : 0 < Q2 * S2 := by
    by_contra h; rw [not_lt] at h; nlinarith [exp_pos (b2 * t)]
  have hS2 : 0 < S2 := by
    by_contra h; rw [not_lt] at h; nlinarith
  refine ⟨spreadValue_second ⟨S1, S2, b1, b2, σ1, σ2, ρ⟩ (S2' := 100 * S2) t r Q1 Q2 K hQ.le (by show S2 ≤ 100 * S2; linarith), ?_⟩
  set X := K * exp (-r * t) with hXdef
  -- effective volatilities
  have vol : ∀ w : ℝ, 0 < w → w ≤ 1 → σ1 * √t < 2 * w → 2 * w - σ1 * √t ≤ √(ratioVar ρ σ1 (σ2 * w)) * √t ∧ 0 < ratioVar ρ σ1 (σ2 * w) := by
    intro w hw hw1 hlt
    have hd : 0 < σ2 * w - σ1 := by
      by_contra h; rw [not_lt] at h; nlinarith
    have hge : (σ2 * w - σ1) ^ 2 ≤ ratioVar ρ σ1 (σ2 * w) := by
      have := (abs_le.1 hρ).2
      unfold ratioVar
      nlinarith [mul_nonneg hσ1 (mul_pos hσ2 hw).le]
    have hp := pow_pos hd 2
    refine ⟨?_, hp.trans_le hge⟩
    have := (le_sqrt hd.le (hp.le.trans hge)).2 hge
    calc 2 * w - σ1 * √t = (σ2 * w - σ1) * √t := by rw [← hv2]; ring
      _ ≤ _ := mul_le_mul_of_nonneg_right this hst.le
  have w1 : 0.01 * X / (0.01 * X + X) = 1 / 101 := by
    rw [show 0.01 * X + X = 1.01 * X by ring]; field_simp; norm_num
  have w2 : X / (X + X) = 1 / 2 := by rw [← two_mul]; field_simp
  have P2'' : Q2 * S2 * exp ((b2 - r) * t) = 0.01 * X := by rw [P2, hXdef]; ring
  obtain ⟨v1, v1'⟩ := vol (1 / 2) (by norm_num) (by norm_num) (by linarith)
  have hlow : 0 < σ1 ^ 2 + (σ2 * (0.01 * X / (0.01 * X + X))) ^ 2 - 2 * ρ * σ1 * (σ2 * (0.01 * X / (0.01 * X + X))) := by
    rw [w1]
    have y0 : 0 < σ2 * (1 / 101) := by positivity
    have r1 : ρ ^ 2 < 1 := (sq_lt_one_iff_abs_lt_one _).2 hρ'
    have := mul_pos (sub_pos.2 r1) (pow_pos y0 2)
    nlinarith [sq_nonneg (σ1 - ρ * (σ2 * (1 / 101)))]
  obtain ⟨a, c, p, k1, k2, -, k3, -⟩ := C106_accuracy S1 S2 K t r b1 b2 σ1 σ2 ρ Q1 Q2
    X (0.01 * X) X h1' h2' hK ht hρ hσ1 P1.symm P2''.symm hXdef hlow
  obtain ⟨a', c', p', l1, l2, -, -, l3⟩ := kirk_pv (S1 := S1) (S2 := 100 * S2) (K := K) (r := r) (ρ := ρ) (σ1 := σ1) (σ2 := σ2)
    h1' ht P1.symm P2'.symm hXdef (by linarith) (by rw [w2]; exact v1')
  refine ⟨a, c, a', c', k1, l1, k2, l2, ?_, ?_⟩
  · have v := spreadValue_le_one ⟨S1, S2, b1, b2, σ1, σ2, ρ⟩ t r Q1 Q2 K h2'.le
    rw [spreadValue_one, bsCall_pv] at v
    simp only at v
    rw [P1, ← hXdef] at v
    have q := bsCall_vol_lip (N := X) (D := X) (t := t) (x := 0) (y := σ1) hX hX ht le_rfl hσ1
    have z := bsPrice_degenerate (S := X) (K := X) (t := t) (r := 0) (b := 0) (σ := 0) true (.inr rfl)
    simp only [bsPrice, if_true] at z
    rw [zero_mul, exp_zero, mul_one, sub_self, max_self, mul_zero] at z
    rw [z, sub_zero, sub_zero, abs_of_nonneg hσ1] at q
    have q' := (abs_le.1 q).2
    have q2 : 0.4 * (X * √t) * σ1 ≤ 0.02 * X := by
      rw [show 0.4 * (X * √t) * σ1 = 0.4 * X * (σ1 * √t) by ring]
      nlinarith
    rw [min_eq_left (by linarith), abs_of_pos hσ2, mul_assoc 0.4, hv2] at k3
    have k4 := (abs_le.1 k3).2
    unfold spreadValue at v
    norm_num at k4 ⊢
    linarith
  · rw [w2] at l3
    set s := √(ratioVar ρ σ1 (σ2 * (1 / 2))) with hs
    have s0 : 0 < 0.95 / √t := by positivity
    have s1 : 0.95 / √t ≤ s := by
      rw [div_le_iff₀ hst]; linarith
    have m : bsCall X (X + X) t 0 0 (0.95 / √t) ≤ bsCall X (X + X) t 0 0 s :=
      (bsCall_strictMono hX (by linarith) ht 0 0).monotoneOn s0 (s0.trans_le s1) s1
    have es : 0.95 / √t * √t = 0.95 := div_mul_cancel₀ _ hst.ne'
    have e1 : D1 X (X + X) t 0 (0.95 / √t) = -log 2 / 0.95 + 0.475 := by
      unfold D1 GBS.d1Expr
      rw [es, show X / (X + X) = 2⁻¹ by rw [← two_mul]; field_simp, log_inv, zero_add,
        show 0.95 / √t * (0.95 / √t) / 2 * t = (0.95 / √t * √t) ^ 2 / 2 by rw [mul_pow, sq_sqrt ht.le]; ring, es]
      ring
    rw [bsCall_eq hX (by linarith) ht s0, es, e1, show (0 - 0 : ℝ) * t = 0 by ring, show -(0 : ℝ) * t = 0 by ring, exp_zero] at m
    have l1 := log_two_gt_d9
    have l2 := log_two_lt_d9
    have c2 := Φ_ge_26 (x := -log 2 / 0.95 + 0.475) (by rw [← sub_nonneg]; ring_nf; linarith)
    have c1 := (abs_le.1 (CNDError.CND_error (-log 2 / 0.95 + 0.475 - 0.95))).1
    have c3 : CND (-log 2 / 0.95 + 0.475 - 0.95) ≤ 0.15 :=
      (CNDError.CND_strictMono.monotone (by rw [← sub_nonneg]; ring_nf; linarith)).trans CND_119
    have e := (abs_le.1 l3).1
    have u1 : X * 0.396 ≤ X * Φ (-log 2 / 0.95 + 0.475) := mul_le_mul_of_nonneg_left c2 hX.le
    have u2 : (X + X) * Φ (-log 2 / 0.95 + 0.475 - 0.95) ≤ (X + X) * 0.151 :=
      mul_le_mul_of_nonneg_left (by norm_num at c1 c3 ⊢; linarith) (by linarith)
    norm_num at *
    linarith

/-- Example for C118: the docstring's option (with `t = 1/10`) at correlations 0.5 and 0.7; the tolerance is less than 0.0001. -/
theorem C118_example : ∃ a c a' c',
    kirkCls.construct (kirkKw 122 120 3 (1 / 10) 0.1 0 0 0.2 0.25 0.5 1 1) = (a, none) ∧
    kirkCls.construct (kirkKw 122 120 3 (1 / 10) 0.1 0 0 0.2 0.25 0.7 1 1) = (a', none) ∧
    KirkClass.call.run a = .ok (.num c) ∧ KirkClass.call.run a' = .ok (.num c') ∧ c' ≤ c + 0.0001 := by
  have he : exp (-0.1 * (1 / 10) : ℝ) ≤ 1 := exp_le_one_iff.2 (by norm_num)
  have he0 := exp_pos (-0.1 * (1 / 10) : ℝ)
  have ew : 1 * 120 * exp ((0 - 0.1) * (1 / 10)) / (1 * 120 * exp ((0 - 0.1) * (1 / 10)) + 3 * exp (-0.1 * (1 / 10)))
      = (120 / 123 : ℝ) := by
    rw [zero_sub]; field_simp; norm_num
  obtain ⟨a, c, p, a', c', p', h, h', hc, -, hc', -, e, -⟩ := C118_correlation 122 120 3 (1 / 10) 0.1 0 0 0.2 0.25 0.5 0.7 1 1 _ _ _
    (by norm_num) (by positivity) (by norm_num) (by norm_num) (by norm_num) (by norm_num) rfl rfl rfl (by positivity) (by rw [ew]; norm_num)
  refine ⟨a, c, a', c', h, h', hc, hc', e.trans ?_⟩
  rw [zero_sub]
  generalize exp (-0.1 * (1 / 10) : ℝ) = x at he
  norm_num
  linarith

/-- Example for `C118_second_fails`: strike and first price 100, one year, first volatility 5%, second 200%. -/
theorem C118_second_example : ∃ a c a' c',
    kirkCls.construct (kirkKw 100 1 100 1 0.05 0 0 0.05 2 0.5 1 1) = (a, none) ∧
    kirkCls.construct (kirkKw 100 (100 * 1) 100 1 0.05 0 0 0.05 2 0.5 1 1) = (a', none) ∧
    KirkClass.call.run a = .ok (.num c) ∧ KirkClass.call.run a' = .ok (.num c') ∧ 2 * c < c' := by
  obtain ⟨-, a, c, a', c', h, h', hc, hc', e, e'⟩ := C118_second_fails 100 1 100 1 0.05 0 0 0.05 2 0.5 1 1 (by norm_num) (by norm_num)
    (by norm_num) (by norm_num) (by norm_num) (by norm_num) (by norm_num) (by norm_num) (by rw [abs_of_pos] <;> norm_num)
  refine ⟨a, c, a', c', h, h', hc, hc', ?_⟩
  have := exp_pos (-0.05 * 1 : ℝ)
  norm_num at e e' ⊢
  norm_num at this
  linarith

end Verif.Props
