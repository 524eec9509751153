import Verif.Model.SpreadEdge
import Verif.Lemmas.Fl
import Verif.Props.Kirk
import Verif.Props.Expiry

/-!
C131 — Kirk's approximation (`SpreadApproxOption`) on the last day, without volatility, with a short side that is not
worth a positive amount, after expiry and with an impossible correlation, computing with `nan` and infinities as `numpy`
does.
-/
namespace Verif.Props
open Real Verif.Spec
open Fl (num)

/-- Price of the call or the put on the spread. -/
noncomputable def kirkEdge (isCall : Bool) (S1 S2 K t r b1 b2 σ1 σ2 ρ Q1 Q2 : ℝ) : Fl :=
  if isCall then KirkEdge.call (num S1) (num S2) (num K) (num t) (num r) (num b1) (num b2) (num σ1) (num σ2) (num ρ)
    (num Q1) (num Q2)
  else KirkEdge.put (num S1) (num S2) (num K) (num t) (num r) (num b1) (num b2) (num σ1) (num σ2) (num ρ)
    (num Q1) (num Q2)

section
variable {S1 S2 K t r b1 b2 σ1 σ2 ρ Q1 Q2 : ℝ}

theorem kirk_edge_short :
    KirkEdge.short (num S2) (num K) (num t) (num r) (num b2) (num Q2) = num (shortLeg S2 K t r b2 Q2) := by
  simp only [KirkEdge.short, Fl.num_mul, Fl.num_sub, Fl.num_neg, Fl.num_exp, Fl.num_add, shortLeg]

theorem kirk_edge_S (hD : shortLeg S2 K t r b2 Q2 ≠ 0) :
    KirkEdge.S (num S1) (num S2) (num K) (num t) (num r) (num b1) (num b2) (num Q1) (num Q2)
      = num (Q1 * S1 * exp ((b1 - r) * t) / shortLeg S2 K t r b2 Q2) := by
  simp only [KirkEdge.S, kirk_edge_short, Fl.num_mul, Fl.num_sub, Fl.num_exp, Fl.num_div _ hD]

theorem kirk_edge_sigma (hD : shortLeg S2 K t r b2 Q2 ≠ 0) :
    KirkEdge.sigma (num S2) (num K) (num t) (num r) (num b2) (num σ1) (num σ2) (num ρ) (num Q2)
      = Fl.sqrt (num (ratioVar ρ σ1 (σ2 * share S2 K t r b2 Q2))) := by
  have e : ratioVar ρ σ1 (σ2 * share S2 K t r b2 Q2)
      = σ1 ^ 2 + (σ2 * share S2 K t r b2 Q2) ^ 2 - 2 * ρ * σ1 * σ2 * share S2 K t r b2 Q2 := by
    unfold ratioVar; ring
  rw [e]
  simp only [KirkEdge.sigma, KirkEdge.F, kirk_edge_short, Fl.num_mul, Fl.num_sub, Fl.num_exp, Fl.num_div _ hD,
    Fl.num_pow, Fl.two_eq, Fl.num_add, share]

/-- Without a number for `_d1` there is no price. -/
theorem kirk_edge_nan (isCall : Bool)
    (h : KirkEdge.d1 (num S1) (num S2) (num K) (num t) (num r) (num b1) (num b2) (num σ1) (num σ2) (num ρ)
      (num Q1) (num Q2) = .nan) : kirkEdge isCall S1 S2 K t r b1 b2 σ1 σ2 ρ Q1 Q2 = .nan := by
  cases isCall
  · simp only [kirkEdge, Bool.false_eq_true, if_false, KirkEdge.put, h, Fl.neg_nan, Fl.CND_nan, Fl.mul_nan, Fl.nan_add]
  · simp only [kirkEdge, if_true, KirkEdge.call, h, Fl.CND_nan, Fl.mul_nan, Fl.nan_sub]

/-- An infinity times anything is not a number, nor is what one gets by adding to it. -/
theorem zero_mul_inf {s : Fl} (hs : s = .pinf ∨ s = .ninf) (x y : Fl) : num 0 * (s * x + y) = .nan := by
  have key : ∀ z : Fl, (∀ a, z ≠ num a) → ∀ y : Fl, num 0 * (z + y) = .nan := by
    have s0 : Fl.signed 0 = .nan := by simp [Fl.signed]
    have s0' : Fl.signed (-0) = .nan := by simp [Fl.signed]
    intro z hz y
    cases z with
    | num a => exact absurd rfl (hz a)
    | nan => rw [Fl.nan_add, Fl.mul_nan]
    | pinf => cases y <;> first | exact s0 | rfl
    | ninf => cases y <;> first | exact s0' | rfl
  have sg : ∀ c a, Fl.signed c ≠ num a := by
    intro c a; unfold Fl.signed; split_ifs <;> simp
  refine key _ ?_ y
  rcases hs with rfl | rfl <;> cases x
  · exact fun a => sg _ a
  · intro a; exact Fl.noConfusion
  · intro a; exact Fl.noConfusion
  · intro a; exact Fl.noConfusion
  · exact fun a => sg _ a
  · intro a; exact Fl.noConfusion
  · intro a; exact Fl.noConfusion
  · intro a; exact Fl.noConfusion

/-- **C131, refuted for a worthless or negative short side.** If the second asset and the strike together are not worth a
positive amount (a strike at or below `−Q2·S2·e^(b2·t)`), the price is `nan`, whatever the other arguments. -/
theorem C131_short_fails (isCall : Bool) (hN : 0 < Q1 * S1) (hD : shortLeg S2 K t r b2 Q2 ≤ 0) :
    kirkEdge isCall S1 S2 K t r b1 b2 σ1 σ2 ρ Q1 Q2 = .nan := by
  rcases hD.lt_or_eq with h | h
  · apply kirk_edge_nan
    simp only [KirkEdge.d1, kirk_edge_S h.ne,
      Fl.log_neg (div_neg_of_pos_of_neg (mul_pos hN (exp_pos ((b1 - r) * t))) h), Fl.nan_add, Fl.nan_div]
  · have hS : KirkEdge.S (num S1) (num S2) (num K) (num t) (num r) (num b1) (num b2) (num Q1) (num Q2) = .pinf := by
      simp only [KirkEdge.S, kirk_edge_short, h, Fl.num_mul, Fl.num_sub, Fl.num_exp]
      show Fl.mul (num _) (Fl.inv (num 0)) = _
      rw [Fl.inv, if_pos rfl, Fl.mul, Fl.signed, if_pos (mul_pos hN (exp_pos _))]
    cases isCall
    · simp only [kirkEdge, Bool.false_eq_true, if_false, KirkEdge.put, kirk_edge_short, h, hS]
      exact zero_mul_inf (Or.inr neg_pinf) _ _
    · simp only [kirkEdge, if_true, KirkEdge.call, kirk_edge_short, h, hS]
      exact zero_mul_inf (Or.inl rfl) _ _

/-- **C131, after expiry.** For a negative maturity there is no price. -/
theorem C131_expired (isCall : Bool) (ht : t < 0) : kirkEdge isCall S1 S2 K t r b1 b2 σ1 σ2 ρ Q1 Q2 = .nan := by
  apply kirk_edge_nan
  simp only [KirkEdge.d1, Fl.sqrt_neg ht, Fl.mul_nan, Fl.div_nan]

/-- **C131, impossible correlation.** If the variance rate of the ratio of the two sides is negative, there is no price;
for a correlation between `−1` and `1` this does not happen. -/
theorem C131_correlation (isCall : Bool) (hD : shortLeg S2 K t r b2 Q2 ≠ 0)
    (hV : ratioVar ρ σ1 (σ2 * share S2 K t r b2 Q2) < 0) :
    kirkEdge isCall S1 S2 K t r b1 b2 σ1 σ2 ρ Q1 Q2 = .nan ∧ 1 < |ρ| := by
  constructor
  · apply kirk_edge_nan
    simp only [KirkEdge.d1, kirk_edge_sigma hD, Fl.sqrt_neg hV, Fl.nan_mul, Fl.div_nan]
  · by_contra h
    obtain ⟨h1, h2⟩ := abs_le.1 (not_lt.1 h)
    unfold ratioVar at hV
    nlinarith [sq_nonneg (σ1 - σ2 * share S2 K t r b2 Q2), sq_nonneg (σ1 + σ2 * share S2 K t r b2 Q2)]

theorem kirk_edge_vol (hD : shortLeg S2 K t r b2 Q2 ≠ 0) (ht : 0 ≤ t)
    (hV : 0 ≤ ratioVar ρ σ1 (σ2 * share S2 K t r b2 Q2)) :
    KirkEdge.sigma (num S2) (num K) (num t) (num r) (num b2) (num σ1) (num σ2) (num ρ) (num Q2) * Fl.sqrt (num t)
      = num (√(ratioVar ρ σ1 (σ2 * share S2 K t r b2 Q2)) * √t) := by
  rw [kirk_edge_sigma hD, Fl.num_sqrt hV, Fl.num_sqrt ht, Fl.num_mul]

/-- Without randomness `_d1` is an infinity, or `nan` if both sides are worth the same. -/
theorem kirk_edge_d1 (hN : 0 < Q1 * S1) (hD : 0 < shortLeg S2 K t r b2 Q2) (ht : 0 ≤ t)
    (hV : 0 ≤ ratioVar ρ σ1 (σ2 * share S2 K t r b2 Q2))
    (hd : t = 0 ∨ ratioVar ρ σ1 (σ2 * share S2 K t r b2 Q2) = 0) :
    KirkEdge.d1 (num S1) (num S2) (num K) (num t) (num r) (num b1) (num b2) (num σ1) (num σ2) (num ρ) (num Q1) (num Q2)
      = Fl.signed (log (Q1 * S1 * exp ((b1 - r) * t) / shortLeg S2 K t r b2 Q2)) := by
  have e : ∀ x : ℝ, x + 0.5 * √(ratioVar ρ σ1 (σ2 * share S2 K t r b2 Q2)) ^ 2 * t = x := by
    intro x; rw [sq_sqrt hV]; rcases hd with h | h <;> rw [h] <;> ring
  have e0 : √(ratioVar ρ σ1 (σ2 * share S2 K t r b2 Q2)) * √t = 0 := by
    rcases hd with h | h <;> rw [h] <;> simp
  rw [KirkEdge.d1, kirk_edge_vol hD.ne' ht hV, e0, kirk_edge_S hD.ne',
    Fl.num_log (div_pos (mul_pos hN (exp_pos _)) hD), kirk_edge_sigma hD.ne', Fl.num_sqrt hV]
  simp only [Fl.num_pow, Fl.num_mul, Fl.num_add, e]
  show Fl.mul (num _) (Fl.inv (num 0)) = _
  rw [Fl.inv, if_pos rfl, Fl.mul]

/-- **C131, without randomness.** On the last day, or where the variance rate of the ratio vanishes, the call is worth
`max(A − B, 0)` and the put `max(B − A, 0)`, where `A` is the present value of the first asset and `B` that of the second
asset and the strike, unless the two are equal. -/
theorem C131_price_partial (isCall : Bool) (hN : 0 < Q1 * S1) (hD : 0 < shortLeg S2 K t r b2 Q2) (ht : 0 ≤ t)
    (hV : 0 ≤ ratioVar ρ σ1 (σ2 * share S2 K t r b2 Q2))
    (hd : t = 0 ∨ ratioVar ρ σ1 (σ2 * share S2 K t r b2 Q2) = 0)
    (hne : Q1 * S1 * exp ((b1 - r) * t) ≠ Q2 * S2 * exp ((b2 - r) * t) + K * exp (-r * t)) :
    kirkEdge isCall S1 S2 K t r b1 b2 σ1 σ2 ρ Q1 Q2
      = num (max ((if isCall then 1 else -1)
          * (Q1 * S1 * exp ((b1 - r) * t) - Q2 * S2 * exp ((b2 - r) * t) - K * exp (-r * t))) 0) := by
  have h1 := kirk_edge_d1 (b1 := b1) hN hD ht hV hd
  have hv := kirk_edge_vol (b2 := b2) hD.ne' ht hV
  have hS := kirk_edge_S (S1 := S1) (b1 := b1) (Q1 := Q1) hD.ne'
  have hB : Q2 * S2 * exp ((b2 - r) * t) + K * exp (-r * t) = shortLeg S2 K t r b2 Q2 := rfl
  rw [hB] at hne
  have hA : Q1 * S1 * exp ((b1 - r) * t) - Q2 * S2 * exp ((b2 - r) * t) - K * exp (-r * t)
      = Q1 * S1 * exp ((b1 - r) * t) - shortLeg S2 K t r b2 Q2 := by rw [← hB]; ring
  rw [hA]
  set A := Q1 * S1 * exp ((b1 - r) * t) with hAd
  set B := shortLeg S2 K t r b2 Q2 with hBd
  have hA0 : 0 < A := mul_pos hN (exp_pos _)
  have hAB : B * (A / B) = A := mul_div_cancel₀ A hD.ne'
  rcases lt_or_gt_of_ne hne with h | h
  · have hl : log (A / B) < 0 := log_neg (by positivity) ((div_lt_one hD).2 h)
    rw [Fl.signed, if_neg (not_lt.2 hl.le), if_pos hl] at h1
    cases isCall
    · simp only [kirkEdge, Bool.false_eq_true, if_false, KirkEdge.put, KirkEdge.d2, h1, hv, hS, kirk_edge_short,
        ninf_sub_num, neg_ninf, Fl.CND_pinf, Fl.num_mul, Fl.num_neg, Fl.num_add, Fl.num_inj]
      rw [max_eq_left (by linarith), ← hBd]; linear_combination -hAB
    · simp only [kirkEdge, if_true, KirkEdge.call, KirkEdge.d2, h1, hv, hS, kirk_edge_short, ninf_sub_num, Fl.CND_ninf,
        Fl.num_mul, Fl.num_sub, Fl.num_inj]
      rw [max_eq_right (by linarith)]; ring
  · have hl : 0 < log (A / B) := log_pos ((one_lt_div hD).2 h)
    rw [Fl.signed, if_pos hl] at h1
    cases isCall
    · simp only [kirkEdge, Bool.false_eq_true, if_false, KirkEdge.put, KirkEdge.d2, h1, hv, hS, kirk_edge_short,
        pinf_sub_num, neg_pinf, Fl.CND_ninf, Fl.num_mul, Fl.num_neg, Fl.num_add, Fl.num_inj]
      rw [max_eq_right (by linarith)]; ring
    · simp only [kirkEdge, if_true, KirkEdge.call, KirkEdge.d2, h1, hv, hS, kirk_edge_short, pinf_sub_num, Fl.CND_pinf,
        Fl.num_mul, Fl.num_sub, Fl.num_inj]
      rw [max_eq_left (by linarith), ← hBd]; linear_combination hAB

/-- **C131, refuted at the money.** Without randomness and with both sides worth the same, the price is `nan`, not zero. -/
theorem C131_at_the_money_fails (isCall : Bool) (hN : 0 < Q1 * S1) (hD : 0 < shortLeg S2 K t r b2 Q2) (ht : 0 ≤ t)
    (hV : 0 ≤ ratioVar ρ σ1 (σ2 * share S2 K t r b2 Q2))
    (hd : t = 0 ∨ ratioVar ρ σ1 (σ2 * share S2 K t r b2 Q2) = 0)
    (heq : Q1 * S1 * exp ((b1 - r) * t) = Q2 * S2 * exp ((b2 - r) * t) + K * exp (-r * t)) :
    kirkEdge isCall S1 S2 K t r b1 b2 σ1 σ2 ρ Q1 Q2 = .nan := by
  apply kirk_edge_nan
  rw [kirk_edge_d1 hN hD ht hV hd, heq]
  rw [show Q2 * S2 * exp ((b2 - r) * t) + K * exp (-r * t) = shortLeg S2 K t r b2 Q2 from rfl, div_self hD.ne',
    log_one, Fl.signed, if_neg (lt_irrefl _), if_neg (lt_irrefl _)]

/-- **C131, inside.** With a positive short side, time to run and variance left, the price is a number: that of the class
model on which the other properties are proved. -/
theorem C131_agrees (isCall : Bool) (hN : 0 < Q1 * S1) (hD : 0 < shortLeg S2 K t r b2 Q2) (ht : 0 < t)
    (hV : 0 < ratioVar ρ σ1 (σ2 * share S2 K t r b2 Q2)) :
    ∃ a x, kirkCls.construct (kirkKw S1 S2 K t r b1 b2 σ1 σ2 ρ Q1 Q2) = (a, none) ∧
      (if isCall then KirkClass.call.run a else KirkClass.put.run a) = .ok (.num x) ∧
      kirkEdge isCall S1 S2 K t r b1 b2 σ1 σ2 ρ Q1 Q2 = num x := by
  obtain ⟨a, ha, -, h⟩ := kirk_prices S1 S2 K t r b1 b2 σ1 σ2 ρ Q1 Q2
  obtain ⟨hc, hp⟩ := h _ _ _ _ _ rfl rfl rfl rfl rfl
  have hv := kirk_edge_vol (b2 := b2) hD.ne' ht.le hV.le
  have hS := kirk_edge_S (S1 := S1) (b1 := b1) (Q1 := Q1) hD.ne'
  have hw : √(ratioVar ρ σ1 (σ2 * share S2 K t r b2 Q2)) * √t ≠ 0 := (mul_pos (sqrt_pos.2 hV) (sqrt_pos.2 ht)).ne'
  have h1 : KirkEdge.d1 (num S1) (num S2) (num K) (num t) (num r) (num b1) (num b2) (num σ1) (num σ2) (num ρ) (num Q1)
      (num Q2) = num ((log (Q1 * S1 * exp ((b1 - r) * t) / shortLeg S2 K t r b2 Q2)
        + 0.5 * √(ratioVar ρ σ1 (σ2 * share S2 K t r b2 Q2)) ^ 2 * t)
          / (√(ratioVar ρ σ1 (σ2 * share S2 K t r b2 Q2)) * √t)) := by
    rw [KirkEdge.d1, hv, hS, Fl.num_log (div_pos (mul_pos hN (exp_pos _)) hD), kirk_edge_sigma hD.ne', Fl.num_sqrt hV.le]
    simp only [Fl.num_pow, Fl.num_mul, Fl.num_add, Fl.num_div _ hw]
  cases isCall
  · refine ⟨a, _, ha, hp, ?_⟩
    simp only [kirkEdge, Bool.false_eq_true, if_false, KirkEdge.put, KirkEdge.d2, h1, hv, hS, kirk_edge_short,
      Fl.CND_num, Fl.num_mul, Fl.num_neg, Fl.num_add, Fl.num_sub]
  · refine ⟨a, _, ha, hc, ?_⟩
    simp only [kirkEdge, if_true, KirkEdge.call, KirkEdge.d2, h1, hv, hS, kirk_edge_short,
      Fl.CND_num, Fl.num_mul, Fl.num_sub]

/-- **C131, when there is no price.** With a positive amount of the first asset, the price is `nan` exactly if the short
side is not worth a positive amount, the maturity or the variance rate of the ratio is negative, or there is no randomness
and both sides are worth the same; it is never infinite. -/
theorem C131_nan_iff (isCall : Bool) (hN : 0 < Q1 * S1) :
    (kirkEdge isCall S1 S2 K t r b1 b2 σ1 σ2 ρ Q1 Q2 = .nan ↔
      shortLeg S2 K t r b2 Q2 ≤ 0 ∨ t < 0 ∨ ratioVar ρ σ1 (σ2 * share S2 K t r b2 Q2) < 0 ∨
        ((t = 0 ∨ ratioVar ρ σ1 (σ2 * share S2 K t r b2 Q2) = 0) ∧
          Q1 * S1 * exp ((b1 - r) * t) = Q2 * S2 * exp ((b2 - r) * t) + K * exp (-r * t))) ∧
    (kirkEdge isCall S1 S2 K t r b1 b2 σ1 σ2 ρ Q1 Q2 = .nan ∨
      ∃ x, kirkEdge isCall S1 S2 K t r b1 b2 σ1 σ2 ρ Q1 Q2 = num x) := by
  rcases le_or_gt (shortLeg S2 K t r b2 Q2) 0 with hD | hD
  · have h := C131_short_fails (t := t) (r := r) (b1 := b1) (σ1 := σ1) (σ2 := σ2) (ρ := ρ) isCall hN hD
    exact ⟨⟨fun _ => .inl hD, fun _ => h⟩, .inl h⟩
  rcases lt_or_ge t 0 with ht | ht
  · have h := C131_expired (S1 := S1) (S2 := S2) (K := K) (r := r) (b1 := b1) (b2 := b2) (σ1 := σ1) (σ2 := σ2) (ρ := ρ)
      (Q1 := Q1) (Q2 := Q2) isCall ht
    exact ⟨⟨fun _ => .inr (.inl ht), fun _ => h⟩, .inl h⟩
  rcases lt_or_ge (ratioVar ρ σ1 (σ2 * share S2 K t r b2 Q2)) 0 with hV | hV
  · have h := (C131_correlation (S1 := S1) (b1 := b1) (Q1 := Q1) isCall hD.ne' hV).1
    exact ⟨⟨fun _ => .inr (.inr (.inl hV)), fun _ => h⟩, .inl h⟩
  by_cases hd : t = 0 ∨ ratioVar ρ σ1 (σ2 * share S2 K t r b2 Q2) = 0
  · by_cases heq : Q1 * S1 * exp ((b1 - r) * t) = Q2 * S2 * exp ((b2 - r) * t) + K * exp (-r * t)
    · have h := C131_at_the_money_fails isCall hN hD ht hV hd heq
      exact ⟨⟨fun _ => .inr (.inr (.inr ⟨hd, heq⟩)), fun _ => h⟩, .inl h⟩
    · have h := C131_price_partial isCall hN hD ht hV hd heq
      refine ⟨⟨fun h' => ?_, ?_⟩, .inr ⟨_, h⟩⟩
      · rw [h] at h'; cases h'
      · rintro (h' | h' | h' | h')
        · exact absurd h' (not_le.2 hD)
        · exact absurd h' (not_lt.2 ht)
        · exact absurd h' (not_lt.2 hV)
        · exact absurd h'.2 heq
  · obtain ⟨h0, h0'⟩ := not_or.1 hd
    obtain ⟨-, x, -, -, h⟩ := C131_agrees (b1 := b1) isCall hN hD (lt_of_le_of_ne ht (Ne.symm h0))
      (lt_of_le_of_ne hV (Ne.symm h0'))
    refine ⟨⟨fun h' => ?_, ?_⟩, .inr ⟨x, h⟩⟩
    · rw [h] at h'; cases h'
    · rintro (h' | h' | h' | h')
      · exact absurd h' (not_le.2 hD)
      · exact absurd h' (not_lt.2 ht)
      · exact absurd h' (not_lt.2 hV)
      · exact absurd h'.1 hd

end

/-- The documented example (spreadapprox.py:136) on its last day with the first asset at `128`: the call pays `5`; with
the first asset at `123` the price is `nan` where the payoff is `0`; and with a strike of `-150` it is `nan` where the
payoff is `152`. -/
theorem C131_example :
    kirkEdge true 128 120 3 0 0.1 0 0 0.2 0.25 0.5 1 1 = num 5 ∧
    kirkEdge true 123 120 3 0 0.1 0 0 0.2 0.25 0.5 1 1 = .nan ∧
    kirkEdge true 122 120 (-150) 0 0.1 0 0 0.2 0.25 0.5 1 1 = .nan := by
  have hD : (0:ℝ) < shortLeg 120 3 0 0.1 0 1 := by unfold shortLeg; norm_num
  have hV : (0:ℝ) ≤ ratioVar 0.5 0.2 (0.25 * share 120 3 0 0.1 0 1) := by
    unfold ratioVar share shortLeg; norm_num
  refine ⟨?_, ?_, ?_⟩
  · rw [C131_price_partial true (by norm_num) hD le_rfl hV (.inl rfl) (by norm_num)]
    norm_num
  · exact C131_at_the_money_fails true (by norm_num) hD le_rfl hV (.inl rfl) (by norm_num)
  · exact C131_short_fails true (by norm_num) (by unfold shortLeg; norm_num)

end Verif.Props
