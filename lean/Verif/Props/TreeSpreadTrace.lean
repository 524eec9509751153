import Verif.Props.TreeSpread
/-!
# The frames recorded by the rollback of the trinomial spread lattice (C58)
-/
namespace Verif.Props
open Verif Verif.Spec Verif.TreeSpread Real

theorem euro_frames (V : Mat) (n : ℕ) (d : ℝ) (k : ℕ) (hk : k < n) :
    ((List.range' 1 k).foldl (euroBody n d) (V, [])).2.length = k ∧
    ∀ l < k, ((List.range' 1 k).foldl (euroBody n d) (V, [])).2[l]?
      = some (pad ((List.range' 1 (l + 1)).foldl (euroBody n d) (V, [])).1 (l + 1)) := by
  induction k with
  | zero => exact ⟨rfl, fun l hl => absurd hl (by omega)⟩
  | succ k ih =>
    obtain ⟨h1, h2⟩ := ih (by omega)
    rw [List.range'_1_concat, List.foldl_append]
    simp only [List.foldl_cons, List.foldl_nil]
    refine ⟨by simp [euroBody, h1], fun l hl => ?_⟩
    rcases Nat.lt_succ_iff_lt_or_eq.1 hl with h | h
    · rw [← h2 l h]
      simp only [euroBody]
      rw [List.getElem?_append_left (by omega)]
    · subst h
      rw [List.range'_1_concat, List.foldl_append]
      simp only [List.foldl_cons, List.foldl_nil, euroBody]
      rw [List.getElem?_append_right (by omega), h1]
      simp [Nat.add_comm]

/-- **C58, the frames of the rollback.** `_euro` records one matrix for every step before the last, all of the size of
the terminal matrix. Frame `k` holds, at the nodes that `k` steps back from the terminal nodes can reach, the average of the
terminal values over `k` independent trinomial steps in each direction, discounted `k` times, and zero in the border of
width `k`. -/
theorem C58_frames (V : Mat) (n : ℕ) (d : ℝ) (hV : V.size = 2 * n + 1) :
    (euro V n d).length = n - 1 ∧
    ∀ k, 1 ≤ k → k < n → ∃ m, (euro V n d)[k - 1]? = some m ∧ m.size = 2 * n + 1 ∧
      ∀ a ≤ 2 * n, ∀ b ≤ 2 * n, m.val a b =
        if k ≤ a ∧ a ≤ 2 * n - k ∧ k ≤ b ∧ b ≤ 2 * n - k then
          d ^ k * ∑ i ∈ Finset.range (2 * k + 1), ∑ j ∈ Finset.range (2 * k + 1),
            tri k i * tri k j * V.val (a - k + i) (b - k + j)
        else 0 := by
  rcases Nat.eq_zero_or_pos n with h0 | h0
  · subst h0; exact ⟨rfl, fun k h1 h2 => absurd h2 (by omega)⟩
  obtain ⟨h1, h2⟩ := euro_frames V n d (n - 1) (by omega)
  refine ⟨h1, fun k hk hkn => ?_⟩
  obtain ⟨old, tr, e1, e2, e3, -⟩ := euro_loop V n d hV k hkn
  have e := h2 (k - 1) (by omega)
  rw [show k - 1 + 1 = k by omega, e1] at e
  refine ⟨_, e, by simp only [pad, e2]; omega, fun a ha b hb => ?_⟩
  simp only [pad, e2]
  by_cases h : k ≤ a ∧ a ≤ 2 * n - k ∧ k ≤ b ∧ b ≤ 2 * n - k
  · rw [if_pos (by omega), if_pos h, e3 _ (by omega) _ (by omega), mean2]
    simp only [mean1, Finset.mul_sum, mul_assoc]
  · rw [if_neg (by omega), if_neg h]

/-- Example for `C58_frames`: the terminal matrix of a lattice with three steps and payoff 36 at node `(2, 2)`; after one
step without discount node `(3, 3)` is worth one thirty-sixth of it and the border is zero. -/
example : ∃ m, (euro ⟨7, fun a b => if a = 2 ∧ b = 2 then 36 else 0⟩ 3 1)[0]? = some m ∧ m.val 3 3 = 1 ∧
    m.val 0 3 = 0 := by
  obtain ⟨m, h1, -, h3⟩ := (C58_frames ⟨7, fun a b => if a = 2 ∧ b = 2 then 36 else 0⟩ 3 1 rfl).2 1 le_rfl (by norm_num)
  exact ⟨m, h1, by rw [h3 3 (by norm_num) 3 (by norm_num)]; norm_num [Finset.sum_range_succ, tri], by rw [h3 0 (by norm_num) 3 (by norm_num)]; simp⟩

end Verif.Props
