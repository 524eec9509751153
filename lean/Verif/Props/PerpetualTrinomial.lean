import Verif.Props.Perpetual
import Verif.Props.LimitClasses

/-!
# C110 for the trinomial lattice
-/

namespace Verif.Props
open Verif Verif.Spec Real Filter _root_.Verif.Tree

/-- **C110.** With enough steps the trinomial put lies between the perpetual put and its lower bound, up to any tolerance. -/
theorem C110_trinomial_put {S K t r b σ γ : ℝ} (h : Valid S K t σ) (hr : 0 < r) (hγ : γ < 0) (hs : Stationary r b σ γ)
    {ε : ℝ} (hε : 0 < ε) :
    ∀ᶠ n : ℕ in atTop, ∃ x, price3 ⟨S, K, t, r, b, σ, "american", n⟩ false = .ok x ∧ x < perpetualPut γ K S + ε ∧
      perpetualPut γ K S - (K - perpetualLevel γ K) * exp (-r * t) - ε < x := by
  obtain ⟨h1, h2, h3⟩ := C110_put h hr hγ hs
  have hc0 : γ / (γ - 1) < 1 := by
    rw [div_lt_one_of_neg (by linarith)]; linarith
  have hKL : 0 ≤ (K - perpetualLevel γ K) * exp (-r * t) := by
    refine mul_nonneg ?_ (exp_pos _).le
    unfold perpetualLevel
    nlinarith [h.K]
  filter_upwards [C95_limit_trinomial h hr.le b hε] with n ⟨x, hx, hb⟩
  rw [abs_lt] at hb
  refine ⟨x, hx, by linarith, ?_⟩
  rcases lt_or_ge (perpetualLevel γ K) S with hl | hl
  · linarith [h3 hl]
  · have := h2 hl
    unfold perpetualPut
    rw [if_pos hl]
    linarith

/-- **C110.** The same for trinomial calls. -/
theorem C110_trinomial_call {S K t r b σ β : ℝ} (h : Valid S K t σ) (hb : b < r) (hβ : 1 < β)
    (hs : Stationary r b σ β) {ε : ℝ} (hε : 0 < ε) :
    ∀ᶠ n : ℕ in atTop, ∃ x, price3 ⟨S, K, t, r, b, σ, "american", n⟩ true = .ok x ∧ x < perpetualCall β K S + ε ∧
      perpetualCall β K S - (perpetualLevel β K - K) * (S / perpetualLevel β K) * exp (-(r - b) * t) - ε < x := by
  obtain ⟨h1, h2, h3⟩ := C110_call h hb hβ hs
  have hB := h.K.trans (level_call hβ h.K)
  have h0 : 0 ≤ (perpetualLevel β K - K) * (S / perpetualLevel β K) * exp (-(r - b) * t) :=
    mul_nonneg (mul_nonneg (by linarith [level_call hβ h.K]) (div_pos h.S hB).le) (exp_pos _).le
  filter_upwards [C95_limit_trinomial_call h (Or.inl hb.le) hε] with n ⟨x, hx, hb⟩
  rw [abs_lt] at hb
  refine ⟨x, hx, by linarith, ?_⟩
  rcases lt_or_ge S (perpetualLevel β K) with hl | hl
  · linarith [h3 hl]
  · have := h2 hl
    unfold perpetualCall
    rw [if_pos hl]
    linarith

/-- Non-vacuous: the contract of `C110_example`. -/
theorem C110_trinomial_example {t : ℝ} (ht : 0 < t) :
    ∀ᶠ n : ℕ in atTop, ∃ x, price3 ⟨42, 40, t, 0.06, 0.02, 0.2, "american", n⟩ true = .ok x ∧
      x < perpetualCall (√3) 40 42 + 0.01 := by
  obtain ⟨h1, h2, -⟩ := C110_example
  filter_upwards [C110_trinomial_call (S := 42) (K := 40) (t := t) ⟨by norm_num, by norm_num, ht, by norm_num⟩ (by norm_num) h2 h1
    (ε := 0.01) (by norm_num)] with n ⟨x, hx, hu, _⟩
  exact ⟨x, hx, hu⟩

end Verif.Props
