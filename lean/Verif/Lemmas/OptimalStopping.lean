import Verif.Spec.Stopping
import Mathlib.Algebra.BigOperators.Fin
import Mathlib.Algebra.Order.BigOperators.Group.Finset
import Mathlib.Algebra.Order.BigOperators.Ring.Finset
import Mathlib.Tactic.Linarith
import Mathlib.Tactic.Ring

/-! Backward induction solves the stopping problem. -/
namespace Verif.Stopping
open Spec Finset

variable {α X : Type} [Fintype α] {w : α → ℝ} {D : ℝ} {move : X → α → X} {g : X → ℝ}

theorem sum_cons {n : ℕ} (F : (Fin (n + 1) → α) → ℝ) :
    ∑ ω, F ω = ∑ a, ∑ ω : Fin n → α, F (Fin.cons a ω) := by
  rw [← (Fin.consEquiv fun _ => α).sum_comp F, Fintype.sum_prod_type]
  rfl

theorem sum_prod (hw : ∑ a, w a = 1) (n : ℕ) : ∑ ω : Fin n → α, ∏ i, w (ω i) = 1 := by
  induction n with
  | zero => simp
  | succ n ih =>
    rw [sum_cons]
    simp only [Fin.prod_univ_succ, Fin.cons_zero, Fin.cons_succ]
    simp_rw [← mul_sum, ih, mul_one]
    exact hw

theorem stateAfter_zero (x : X) {n : ℕ} (ω : Fin n → α) : stateAfter move x ω 0 = x := rfl

theorem stateAfter_cons (x : X) {n : ℕ} (a : α) (ω : Fin n → α) (k : ℕ) :
    stateAfter move x (Fin.cons a ω : Fin (n + 1) → α) (k + 1) = stateAfter move (move x a) ω k := by
  unfold stateAfter
  rw [List.ofFn_succ]
  simp

/-- Stopping at once. -/
theorem mean_zero (hw : ∑ a, w a = 1) {n : ℕ} (x : X) {τ : (Fin n → α) → ℕ} (h : ∀ ω, τ ω = 0) :
    stoppedMean w D move g n x τ = g x := by
  unfold stoppedMean
  simp only [h, pow_zero, one_mul, stateAfter_zero]
  rw [← sum_mul, sum_prod hw, one_mul]

/-- Making one move and following `τ'` thereafter. -/
theorem mean_succ {n : ℕ} (x : X) {τ : (Fin (n + 1) → α) → ℕ} {τ' : α → (Fin n → α) → ℕ}
    (h : ∀ a ω, τ (Fin.cons a ω) = τ' a ω + 1) :
    stoppedMean w D move g (n + 1) x τ = D * ∑ a, w a * stoppedMean w D move g n (move x a) (τ' a) := by
  unfold stoppedMean
  rw [sum_cons, mul_sum]
  refine sum_congr rfl fun a _ => ?_
  rw [mul_sum, mul_sum]
  refine sum_congr rfl fun ω _ => ?_
  rw [h, stateAfter_cons, Fin.prod_univ_succ, Fin.cons_zero]
  simp only [Fin.cons_succ]
  rw [pow_succ]
  ring

theorem stopping_succ {n : ℕ} {τ' : α → (Fin n → α) → ℕ} (h : ∀ a, IsStopping n (τ' a)) :
    IsStopping (n + 1) (fun ω => τ' (ω 0) (Fin.tail ω) + 1) := by
  intro ω
  refine ⟨Nat.succ_le_succ (h _ _).1, fun ω' hω => ?_⟩
  have h0 : ω' 0 = ω 0 := hω 0 (by simp)
  show τ' (ω' 0) (Fin.tail ω') + 1 = τ' (ω 0) (Fin.tail ω) + 1
  rw [h0]
  congr 1
  refine (h (ω 0) (Fin.tail ω)).2 _ fun i hi => hω i.succ ?_
  simp only [Fin.val_succ]
  omega

theorem stopping_pred {n : ℕ} {τ : (Fin (n + 1) → α) → ℕ} (h : IsStopping (n + 1) τ) (h0 : ∀ ω, τ ω ≠ 0) (a : α) :
    IsStopping n (fun ω => τ (Fin.cons a ω) - 1) := by
  intro ω
  obtain ⟨h1, h2⟩ := h (Fin.cons a ω)
  refine ⟨by show τ (Fin.cons a ω) - 1 ≤ n; omega, fun ω' hω => ?_⟩
  have := h2 (Fin.cons a ω') fun i hi => ?_
  · simp only [this]
  · refine Fin.cases ?_ (fun i hi => ?_) i hi
    · intro _; simp
    · simp only [Fin.cons_succ]
      refine hω i ?_
      rw [Fin.val_succ] at hi
      show (i : ℕ) < τ (Fin.cons a ω) - 1
      omega

/-- Backward induction gives the stopping value. -/
theorem isStoppingValue (hw0 : ∀ a, 0 ≤ w a) (hw : ∑ a, w a = 1) (hD : 0 ≤ D) {V : ℕ → X → ℝ} (h0 : ∀ x, V 0 x = g x)
    (hs : ∀ m x, V (m + 1) x = max (g x) (D * ∑ a, w a * V m (move x a))) (n : ℕ) (x : X) :
    IsStoppingValue w D move g n x (V n x) := by
  constructor
  · suffices h : ∀ n x, ∃ τ, IsStopping n τ ∧ V n x = stoppedMean w D move g n x τ from h n x
    intro n
    induction n with
    | zero =>
      intro x
      exact ⟨fun _ => 0, fun _ => ⟨le_rfl, fun _ _ => rfl⟩, by rw [mean_zero hw x fun _ => rfl, h0]⟩
    | succ n ih =>
      intro x
      rw [hs]
      by_cases hc : D * ∑ a, w a * V n (move x a) ≤ g x
      · exact ⟨fun _ => 0, fun _ => ⟨Nat.zero_le _, fun _ _ => rfl⟩, by rw [mean_zero hw x fun _ => rfl, max_eq_left hc]⟩
      · choose τ h1 h2 using fun a => ih (move x a)
        refine ⟨_, stopping_succ h1, ?_⟩
        rw [max_eq_right (not_le.1 hc).le, mean_succ (τ' := τ) x fun a ω => by simp]
        simp_rw [h2]
  · rintro y ⟨τ, hτ, rfl⟩
    induction n generalizing x with
    | zero =>
      rw [mean_zero hw x fun ω => Nat.le_zero.1 (hτ ω).1, h0]
    | succ n ih =>
      rw [hs]
      by_cases hz : ∃ ω, τ ω = 0
      · obtain ⟨ω, hz⟩ := hz
        rw [mean_zero hw x fun ω' => ?_]
        · exact le_max_left _ _
        · rw [(hτ ω).2 ω' fun i hi => ?_, hz]
          rw [hz] at hi
          exact absurd hi (Nat.not_lt_zero _)
      · have hz' : ∀ ω, τ ω ≠ 0 := fun ω h => hz ⟨ω, h⟩
        rw [mean_succ (τ' := fun a ω => τ (Fin.cons a ω) - 1) x fun a ω => by
          have := hz' (Fin.cons a ω); omega]
        refine le_trans (mul_le_mul_of_nonneg_left (sum_le_sum fun a _ => ?_) hD) (le_max_right _ _)
        exact mul_le_mul_of_nonneg_left (ih _ _ (stopping_pred hτ hz' a)) (hw0 a)

end Verif.Stopping
