import Verif.Model.BSEdge
import Verif.Model.American
import Verif.Lemmas.Fl
import Verif.Props.BS93
import Verif.Props.Expiry

/-!
C133 — `BSAmericanApproxOption` on the last day, after expiry, without volatility and for a worthless underlying, computing
with `nan` and infinities as `numpy` does.
-/
namespace Verif.Props
open Real
open Fl (num)

section
variable {S K T r b σ : ℝ}

theorem bs_pow {x : ℝ} (hx : 0 < x) (y : ℝ) : BSEdge.pow (num x) (num y) = num (x ^ y) := by
  by_cases h : y = 0
  · simp [BSEdge.pow, h]
  · simp [BSEdge.pow, h, hx]

theorem fl_bs_beta (hσ : 0 < σ) (hb : b < r) :
    BSEdge.beta (num r) (num b) (num σ) = num (BS93.beta r b σ) := by
  have hσ2 : 0 < σ ^ 2 := by positivity
  have hlt : b / σ ^ 2 < r / σ ^ 2 := div_lt_div_of_pos_right hb hσ2
  have h0 : 0 ≤ (b / σ ^ 2 - 1 / 2) ^ 2 + 2 * r / σ ^ 2 := by
    rw [mul_div_assoc]; nlinarith [sq_nonneg (b / σ ^ 2 + 1 / 2)]
  simp only [BSEdge.beta, BS93.beta, Fl.one_eq, Fl.two_eq, Fl.num_pow, Fl.num_mul, Fl.num_div _ hσ2.ne',
    Fl.num_div _ (two_ne_zero : (2:ℝ) ≠ 0), Fl.num_sub, Fl.num_add, Fl.num_sqrt h0]

theorem fl_bs_binf (hσ : 0 < σ) (hb : b < r) :
    BSEdge.BInf K r b σ = num (BS93.beta r b σ / (BS93.beta r b σ - 1) * K) := by
  have h1 : BS93.beta r b σ - 1 ≠ 0 := (sub_pos.2 (bs_beta hσ hb).1).ne'
  simp only [BSEdge.BInf, fl_bs_beta hσ hb, Fl.one_eq, Fl.num_sub, Fl.num_div _ h1, Fl.num_mul]

theorem fl_bs_trigger (hK : 0 < K) (hσ : 0 < σ) (hb : b < r) (hT : 0 ≤ T) :
    BSEdge.trigger K T r b σ = num (BS93.trigger K T r b σ) := by
  have h1 : BS93.beta r b σ / (BS93.beta r b σ - 1) * K - max K (r / (r - b) * K) ≠ 0 :=
    (sub_pos.2 (bs_bounds hK hσ hb).2).ne'
  simp only [BSEdge.trigger, BSEdge.ht, fl_bs_binf hσ hb, BSEdge.B0, Fl.one_eq, Fl.two_eq, Fl.num_sqrt hT, Fl.num_mul,
    Fl.num_add, Fl.num_neg, Fl.num_sub, Fl.num_div _ h1, Fl.num_exp, BS93.trigger]

theorem fl_bs_phi (hS : 0 < S) {H I : ℝ} (hH : 0 < H) (hI : 0 < I) (hT : 0 < T) (hσ : 0 < σ) (γ : ℝ) :
    BSEdge.phi (num S) (num T) (num γ) (num H) (num I) (num r) (num b) (num σ) = num (BS93.phi S T γ H I r b σ) := by
  have h1 : σ * √T ≠ 0 := (mul_pos hσ (sqrt_pos.2 hT)).ne'
  have h2 : σ ^ 2 ≠ 0 := (pow_pos hσ 2).ne'
  simp only [BSEdge.phi, BS93.phi, Fl.num_sqrt hT.le, Fl.num_mul, Fl.num_div _ hH.ne', Fl.num_div _ hS.ne',
    Fl.num_log (div_pos hS hH), Fl.num_log (div_pos hI hS), Fl.num_neg, Fl.num_pow, Fl.num_add, Fl.num_sub, Fl.one_eq,
    Fl.two_eq, Fl.num_div _ h1, Fl.num_div _ h2, Fl.num_exp, bs_pow hS, bs_pow (div_pos hI hS), Fl.CND_num]

theorem fl_bs_below (hS : 0 < S) (hK : 0 < K) {I : ℝ} (hI : 0 < I) (hT : 0 < T) (hσ : 0 < σ) (hb : b < r) :
    BSEdge.below S K T r b σ (num I) = num (BS93.below S K T r b σ I) := by
  simp only [BSEdge.below, BS93.below, fl_bs_beta hσ hb, Fl.one_eq, Fl.zero_eq, fl_bs_phi hS hI hI hT hσ,
    fl_bs_phi hS hK hI hT hσ, Fl.num_neg, bs_pow hI, bs_pow hS, Fl.num_sub, Fl.num_mul, Fl.num_add]

/-- **C133, inside.** For positive spot, strike, maturity and volatility and all rates, `call()` gives the numbers of the
model on which the other properties are proved, with `nan` for the trigger exactly where that has none. -/
theorem C133_agrees (hS : 0 < S) (hK : 0 < K) (hT : 0 < T) (hσ : 0 < σ) :
    ∃ p I, BS93.call ⟨S, K, T, r, b, some σ⟩ = .ok (p, I) ∧
      BSEdge.call S K T r b σ = .ok (num p, I.elim .nan num) := by
  by_cases hb : b ≥ r
  · refine ⟨gbsCallNum S K T r b σ, none, ?_, ?_⟩
    · simp only [BS93.call, BS93.approx, if_pos hb]; rfl
    · simp only [BSEdge.call, BSEdge.approx, if_pos hb, if_neg hK.ne', fl_call hK hT hσ hS, Option.elim]
  · have hb' : b < r := not_le.1 hb
    simp only [BSEdge.call, BSEdge.approx, BS93.call, BS93.approx, if_neg hb, if_neg hσ.ne', if_neg hK.ne',
      fl_bs_trigger hK hσ hb' hT.le, BSEdge.ge]
    by_cases hI : S ≥ BS93.trigger K T r b σ
    · rw [if_pos hI, if_pos hI]
      exact ⟨_, _, rfl, by rw [Fl.num_sub, Option.elim]⟩
    · rw [if_neg hI, if_neg hI]
      exact ⟨_, _, rfl, by rw [fl_bs_below hS hK (hS.trans (not_le.1 hI)) hT hσ hb', Option.elim]⟩

/-- One `nan` among the terms is enough. -/
theorem bs_below_nan {I : Fl} (h : BSEdge.phi (num S) (num T) (BSEdge.beta (num r) (num b) (num σ)) I I (num r) (num b)
    (num σ) = .nan) : BSEdge.below S K T r b σ I = .nan := by
  simp only [BSEdge.below, h, Fl.mul_nan, Fl.sub_nan, Fl.nan_add, Fl.nan_sub]

theorem bs_phi_nan {S T γ H I r b σ : Fl}
    (h : -(Fl.log (S / H) + (b + (γ - num 0.5) * σ ^ 2) * T) / (σ * Fl.sqrt T) = .pinf)
    (h' : 2 * Fl.log (I / S) / (σ * Fl.sqrt T) = .pinf) : BSEdge.phi S T γ H I r b σ = .nan := by
  have e : Fl.pinf - .pinf = .nan := rfl
  simp only [BSEdge.phi, h, h', e, Fl.CND_nan, Fl.mul_nan, Fl.sub_nan]

theorem bs_trigger_last (K r b σ : ℝ) : BS93.trigger K 0 r b σ = max K (r / (r - b) * K) := by
  simp [BS93.trigger]

/-- **C133, refuted on the last day.** With `b < r` (where early exercise can pay), the call price on the last day is the
payoff only from `max(K, rK/(r−b))` on; for every lower spot it is `nan`. -/
theorem C133_last_day_fails (hS : 0 < S) (hK : 0 < K) (hσ : 0 < σ) (hb : b < r) :
    (max K (r / (r - b) * K) ≤ S → BSEdge.call S K 0 r b σ = .ok (num (max (S - K) 0), num (max K (r / (r - b) * K)))) ∧
    (S < max K (r / (r - b) * K) → BSEdge.call S K 0 r b σ = .ok (.nan, num (max K (r / (r - b) * K)))) := by
  simp only [BSEdge.call, BSEdge.approx, ge_iff_le, if_neg (not_le.2 hb), if_neg hσ.ne', if_neg hK.ne',
    fl_bs_trigger hK hσ hb le_rfl, bs_trigger_last, BSEdge.ge]
  constructor
  · intro h
    rw [if_pos h, max_eq_left (sub_nonneg.2 ((le_max_left _ _).trans h)), Fl.num_sub]
  · intro h
    have hI : 0 < max K (r / (r - b) * K) := lt_max_of_lt_left hK
    set I := max K (r / (r - b) * K)
    rw [if_neg (not_le.2 h), bs_below_nan]
    have h0 : num σ * Fl.sqrt (num 0) = num 0 := by rw [Fl.num_sqrt le_rfl, sqrt_zero, Fl.num_mul, mul_zero]
    apply bs_phi_nan
    · rw [h0, fl_bs_beta hσ hb, Fl.num_div _ hI.ne', Fl.num_log (div_pos hS hI)]
      simp only [Fl.num_pow, Fl.num_mul, Fl.num_sub, Fl.num_add, Fl.num_neg, mul_zero, add_zero]
      have hl : log (S / I) < 0 := log_neg (div_pos hS hI) ((div_lt_one hI).2 h)
      show Fl.mul (num _) (Fl.inv (num 0)) = _
      rw [Fl.inv, if_pos rfl, Fl.mul, Fl.signed, if_pos (neg_pos.2 hl)]
    · rw [h0, Fl.num_div _ hS.ne', Fl.num_log (div_pos hI hS), Fl.two_eq, Fl.num_mul]
      have hl : 0 < log (I / S) := log_pos ((one_lt_div hS).2 h)
      show Fl.mul (num _) (Fl.inv (num 0)) = _
      rw [Fl.inv, if_pos rfl, Fl.mul, Fl.signed, if_pos (by linarith)]

/-- **C133, last day without early exercise.** With `b ≥ r` the call price on the last day is the payoff, unless the spot
is the strike. -/
theorem C133_last_day_partial (hS : 0 < S) (hK : 0 < K) (hb : r ≤ b) :
    (S ≠ K → BSEdge.call S K 0 r b σ = .ok (num (max (S - K) 0), .nan)) ∧
    (S = K → BSEdge.call S K 0 r b σ = .ok (.nan, .nan)) := by
  simp only [BSEdge.call, BSEdge.approx, ge_iff_le, if_pos hb, if_neg hK.ne']
  constructor
  · intro h
    have := C103_price_partial (t := 0) (r := r) (b := b) (σ := σ) true hS hK le_rfl (.inl rfl) (by simpa using h)
    rw [bsPrice_degenerate true (.inl rfl)] at this
    simp only [edgePrice, if_true, mul_zero, exp_zero, mul_one, one_mul] at this
    rw [this]
  · intro h
    have := (C103_at_the_money_fails (t := 0) (r := r) (b := b) (σ := σ) true hS hK le_rfl (.inl rfl)
      (by simpa using h)).1
    simp only [edgePrice, if_true] at this
    rw [this]

/-- **C133, the put on the last day.** For `r > 0` the put is `nan` for every spot above `K / max(1, (r−b)/r)`. -/
theorem C133_last_day_put_fails (hS : 0 < S) (hK : 0 < K) (hσ : 0 < σ) (hr : 0 < r) :
    (max S ((r - b) / r * S) ≤ K → ∃ I, BSEdge.put S K 0 r b σ = .ok (num (max (K - S) 0), I)) ∧
    (K < max S ((r - b) / r * S) → ∃ I, BSEdge.put S K 0 r b σ = .ok (.nan, I)) := by
  have h := C133_last_day_fails (r := r - b) (b := -b) hK hS hσ (by linarith)
  rw [show r - b - -b = r by ring] at h
  exact ⟨fun h' => ⟨_, h.1 h'⟩, fun h' => ⟨_, h.2 h'⟩⟩

theorem bs_trigger_nan (hT : T < 0) : BSEdge.trigger K T r b σ = .nan := by
  simp only [BSEdge.trigger, BSEdge.ht, Fl.sqrt_neg hT, Fl.mul_nan, Fl.add_nan, Fl.neg_nan, Fl.nan_mul, Fl.nan_div,
    Fl.exp_nan, Fl.sub_nan]

/-- **C133, after expiry.** For a negative maturity neither price nor trigger is a number, for calls and puts. -/
theorem C133_expired (hS : 0 < S) (hK : 0 < K) (hT : T < 0) (hσ : 0 < σ) :
    BSEdge.call S K T r b σ = .ok (.nan, .nan) ∧ BSEdge.put S K T r b σ = .ok (.nan, .nan) := by
  have key : ∀ S K r b : ℝ, 0 < K → BSEdge.approx S K T r b σ = .ok (.nan, .nan) := by
    intro S K r b hK
    by_cases hb : b ≥ r
    · simp only [BSEdge.approx, if_pos hb, if_neg hK.ne', Fl.gbsCall, Fl.gbsD1, Fl.sqrt_neg hT, Fl.mul_nan, Fl.div_nan,
        Fl.CND_nan, Fl.nan_sub]
    · have h0 : ¬ BSEdge.ge S .nan := id
      rw [BSEdge.approx, if_neg hb, if_neg hσ.ne', bs_trigger_nan hT, if_neg h0, if_neg hK.ne', bs_below_nan]
      simp only [BSEdge.phi, Fl.sqrt_neg hT, Fl.mul_nan, Fl.div_nan, Fl.CND_nan, Fl.nan_sub]
  exact ⟨key S K r b hK, key K S _ _ hS⟩

/-- **C133, refuted without volatility.** With `b < r` the call raises `ZeroDivisionError` for `sigma = 0`, with `r > 0`
the put does. -/
theorem C133_no_volatility_fails : (b < r → BSEdge.call S K T r b 0 = .error .zeroDivision) ∧
    (0 < r → BSEdge.put S K T r b 0 = .error .zeroDivision) := by
  constructor
  · intro hb
    simp only [BSEdge.call, BSEdge.approx, ge_iff_le, if_neg (not_le.2 hb), if_true]
  · intro hr
    have hb : ¬ (r - b ≤ -b) := by intro h; linarith
    simp only [BSEdge.put, BSEdge.approx, ge_iff_le, if_neg hb, if_true]

/-- **C133, refuted for a worthless underlying.** With `b < r` the call on an asset worth nothing is never zero: it is
`nan`, or `−K` where the trigger is not positive. -/
theorem C133_worthless_fails (hK : 0 < K) (hT : 0 < T) (hσ : 0 < σ) (hb : b < r) :
    (0 < BS93.trigger K T r b σ → ∃ I, BSEdge.call 0 K T r b σ = .ok (.nan, I)) ∧
    (BS93.trigger K T r b σ ≤ 0 → ∃ I, BSEdge.call 0 K T r b σ = .ok (num (-K), I)) := by
  simp only [BSEdge.call, BSEdge.approx, ge_iff_le, if_neg (not_le.2 hb), if_neg hσ.ne', if_neg hK.ne',
    fl_bs_trigger hK hσ hb hT.le, BSEdge.ge]
  constructor
  · intro hI
    rw [if_neg (not_le.2 hI), bs_below_nan]
    · exact ⟨_, rfl⟩
    have hw : 0 < σ * √T := mul_pos hσ (sqrt_pos.2 hT)
    have h0 : num σ * Fl.sqrt (num T) = num (σ * √T) := by rw [Fl.num_sqrt hT.le, Fl.num_mul]
    have hpi : Fl.pinf / num (σ * √T) = .pinf := by
      show Fl.mul .pinf (Fl.inv (num _)) = _
      rw [Fl.inv, if_neg hw.ne', Fl.mul, Fl.signed, if_pos (inv_pos.2 hw)]
    apply bs_phi_nan
    · rw [h0, fl_bs_beta hσ hb, Fl.num_div _ hI.ne', zero_div, Fl.log_zero]
      simp only [Fl.num_pow, Fl.num_mul, Fl.num_sub, Fl.num_add]
      exact hpi
    · have : num (BS93.trigger K T r b σ) / num 0 = .pinf := by
        show Fl.mul (num _) (Fl.inv (num 0)) = _
        rw [Fl.inv, if_pos rfl, Fl.mul, Fl.signed, if_pos hI]
      have h2 : 2 * Fl.log .pinf = .pinf := by
        rw [Fl.two_eq]
        show Fl.signed 2 = _
        rw [Fl.signed, if_pos two_pos]
      rw [h0, this, h2, hpi]
  · intro hI
    rw [if_pos hI, Fl.num_sub, zero_sub]
    exact ⟨_, rfl⟩

/-- **C133, the put on a worthless underlying** raises `ZeroDivisionError`, where the option is worth the strike. -/
theorem C133_worthless_put_fails (hσ : 0 < σ) : BSEdge.put 0 K T r b σ = .error .zeroDivision := by
  by_cases hr : r ≤ 0
  · have : r - b ≤ -b := by linarith
    simp only [BSEdge.put, BSEdge.approx, ge_iff_le, if_pos this, if_true]
  · have hb : -b < r - b := by linarith
    have h : BSEdge.trigger 0 T (r - b) (-b) σ = .nan := by
      rcases lt_or_ge T 0 with hT | hT
      · exact bs_trigger_nan hT
      · simp only [BSEdge.trigger, BSEdge.ht, fl_bs_binf hσ hb, BSEdge.B0, mul_zero, max_self, Fl.num_sqrt hT, Fl.two_eq,
          Fl.num_mul, Fl.num_add, Fl.num_neg, Fl.num_sub, sub_zero, zero_div_zero, Fl.exp_nan, Fl.sub_nan, Fl.mul_nan,
          Fl.add_nan]
    have h0 : BSEdge.ge K (BSEdge.trigger 0 T (r - b) (-b) σ) = False := by rw [h]; rfl
    simp only [BSEdge.put, BSEdge.approx, ge_iff_le, if_neg (not_le.2 hb), if_neg hσ.ne', h0, if_false, if_true]

/-- **C133, when there is no price.** For positive spot, strike and volatility the call price is `nan` exactly after
expiry, and on the last day below `max(K, rK/(r−b))` if `b < r` and at the strike if `b ≥ r`; otherwise it is a number. -/
theorem C133_nan_iff (hS : 0 < S) (hK : 0 < K) (hσ : 0 < σ) :
    ((∃ I, BSEdge.call S K T r b σ = .ok (.nan, I)) ↔
      T < 0 ∨ (T = 0 ∧ (b < r ∧ S < max K (r / (r - b) * K) ∨ r ≤ b ∧ S = K))) ∧
    ((∃ I, BSEdge.call S K T r b σ = .ok (.nan, I)) ∨ ∃ p I, BSEdge.call S K T r b σ = .ok (num p, I)) := by
  have neq : ∀ {x : ℝ} {I : Fl}, BSEdge.call S K T r b σ = .ok (num x, I) →
      ¬ ∃ I, BSEdge.call S K T r b σ = .ok (.nan, I) := by
    rintro x I h ⟨J, h'⟩
    rw [h] at h'
    cases h'
  rcases lt_trichotomy T 0 with hT | rfl | hT
  · have h : ∃ I, BSEdge.call S K T r b σ = .ok (.nan, I) := ⟨_, (C133_expired hS hK hT hσ).1⟩
    exact ⟨⟨fun _ => .inl hT, fun _ => h⟩, .inl h⟩
  · rcases lt_or_ge b r with hb | hb
    · rcases lt_or_ge S (max K (r / (r - b) * K)) with hI | hI
      · have h : ∃ I, BSEdge.call S K 0 r b σ = .ok (.nan, I) := ⟨_, (C133_last_day_fails hS hK hσ hb).2 hI⟩
        exact ⟨⟨fun _ => .inr ⟨rfl, .inl ⟨hb, hI⟩⟩, fun _ => h⟩, .inl h⟩
      · have h := (C133_last_day_fails hS hK hσ hb).1 hI
        refine ⟨⟨fun h' => absurd h' (neq h), ?_⟩, .inr ⟨_, _, h⟩⟩
        rintro (h' | ⟨-, ⟨-, h'⟩ | ⟨h', -⟩⟩)
        · exact absurd h' (lt_irrefl _)
        · exact absurd h' (not_lt.2 hI)
        · exact absurd h' (not_le.2 hb)
    · by_cases hSK : S = K
      · have h : ∃ I, BSEdge.call S K 0 r b σ = .ok (.nan, I) := ⟨_, (C133_last_day_partial hS hK hb).2 hSK⟩
        exact ⟨⟨fun _ => .inr ⟨rfl, .inr ⟨hb, hSK⟩⟩, fun _ => h⟩, .inl h⟩
      · have h := (C133_last_day_partial (σ := σ) hS hK hb).1 hSK
        refine ⟨⟨fun h' => absurd h' (neq h), ?_⟩, .inr ⟨_, _, h⟩⟩
        rintro (h' | ⟨-, ⟨h', -⟩ | ⟨-, h'⟩⟩)
        · exact absurd h' (lt_irrefl _)
        · exact absurd h' (not_lt.2 hb)
        · exact absurd h' hSK
  · obtain ⟨p, I, -, h⟩ := C133_agrees (r := r) (b := b) hS hK hT hσ
    refine ⟨⟨fun h' => absurd h' (neq h), ?_⟩, .inr ⟨_, _, h⟩⟩
    rintro (h' | ⟨h', -⟩)
    · exact absurd h' (not_lt.2 hT.le)
    · exact absurd h' hT.ne'

end

/-- The documented example (basic_american_options/__init__.py:686) on its last day: `B0 = 16`, so at a spot of `10` the
call struck at `8` is `nan` where it pays `2`, and at `20` it is `12`. -/
theorem C133_example :
    BSEdge.call 10 8 0 0.02 0.01 0.1 = .ok (.nan, num 16) ∧ BSEdge.call 20 8 0 0.02 0.01 0.1 = .ok (num 12, num 16) := by
  have e : max (8:ℝ) (0.02 / (0.02 - 0.01) * 8) = 16 := by norm_num
  have h := C133_last_day_fails (S := 10) (K := 8) (r := 0.02) (b := 0.01) (σ := 0.1) (by norm_num) (by norm_num)
    (by norm_num) (by norm_num)
  have h' := C133_last_day_fails (S := 20) (K := 8) (r := 0.02) (b := 0.01) (σ := 0.1) (by norm_num) (by norm_num)
    (by norm_num) (by norm_num)
  rw [e] at h h'
  refine ⟨h.2 (by norm_num), ?_⟩
  rw [h'.1 (by norm_num)]
  norm_num

end Verif.Props
