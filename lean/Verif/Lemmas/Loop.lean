import Verif.Model.American

/-! Rules for `while` loops. -/
namespace Verif

/-- The pricing functions of the searches are the methods of `GBSOption`. -/
theorem gbsCallNum_eq (S K t r b σ : ℝ) : (GBS.new S K t r b (some σ)).call = .ok (gbsCallNum S K t r b σ) := rfl
theorem gbsPutNum_eq (S K t r b σ : ℝ) : (GBS.new S K t r b (some σ)).put = .ok (gbsPutNum S K t r b σ) := rfl

end Verif

namespace Verif.Py
variable {σ : Type} {c : σ → Prop} {f : σ → σ}

theorem Loop.exit {s s' : σ} (h : Loop c f s s') : ¬ c s' := by
  induction h with
  | stop h => exact h
  | step _ _ ih => exact ih

theorem Loop.inv {P : σ → Prop} (hP : ∀ s, P s → c s → P (f s)) {s s' : σ} (h : Loop c f s s') (h0 : P s) :
    P s' := by
  induction h with
  | stop _ => exact h0
  | step hc _ ih => exact ih (hP _ h0 hc)

theorem Loop.det {s a b : σ} (ha : Loop c f s a) (hb : Loop c f s b) : a = b := by
  induction ha with
  | stop h => cases hb with
    | stop _ => rfl
    | step h' _ => exact absurd h' h
  | step h _ ih => cases hb with
    | stop h' => exact absurd h h'
    | step _ h' => exact ih h'

/-- A loop ends if a natural-number bound on the remaining iterations exists. -/
theorem Loop.exists_of_bound {P : ℕ → σ → Prop} (h0 : ∀ s, P 0 s → ¬ c s)
    (hs : ∀ n s, P (n + 1) s → c s → P n (f s)) : ∀ (n : ℕ) (s : σ), P n s → ∃ s', Loop c f s s' := by
  intro n
  induction n with
  | zero => exact fun s h => ⟨s, .stop (h0 s h)⟩
  | succ n ih =>
    intro s h
    by_cases hc : c s
    · obtain ⟨s', h'⟩ := ih _ (hs n s h hc)
      exact ⟨s', .step hc h'⟩
    · exact ⟨s, .stop hc⟩

end Verif.Py
