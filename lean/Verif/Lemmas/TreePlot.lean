import Verif.Lemmas.Tree
import Mathlib.Data.List.Perm.Basic
import Mathlib.Data.List.Nodup

/-! The annotation lists of the two tree plotters. -/
namespace Verif
open Py _root_.Verif.Tree

variable {R : Type}

theorem foldlM_append_ok {α β : Type} {g : List β → α → Except PyErr (List β)} {h : α → List β}
    {l : List α} (hg : ∀ x ∈ l, ∀ acc, g acc x = .ok (acc ++ h x)) (acc : List β) :
    l.foldlM (init := acc) g = .ok (acc ++ l.flatMap h) := by
  induction l generalizing acc with
  | nil => simp [pure, Except.pure]
  | cons x l ih =>
    rw [List.foldlM_cons, hg x (by simp)]
    simp only [bind, Except.bind]
    rw [ih (fun y hy => hg y (by simp [hy]))]
    simp

theorem biPoints_eq (i : ℕ) :
    biPoints i = (List.range (2 * i + 3)).map fun k : ℕ =>
      (((if k % 2 = 0 then 1 else 0) + i, (i : ℤ) + 1 - k) : ℕ × ℤ) := by
  have h : ∀ m, [1, 0, 1] ++ (List.range m).flatMap (fun _ => [0, 1])
      = (List.range (2 * m + 3)).map fun k : ℕ => if k % 2 = 0 then 1 else 0 := by
    intro m
    induction m with
    | zero => rfl
    | succ m ih =>
      rw [List.range_succ, List.flatMap_append, ← List.append_assoc, ih,
        show 2 * (m + 1) + 3 = 2 * m + 3 + 1 + 1 by ring, List.range_succ (n := 2 * m + 3 + 1),
        List.range_succ (n := 2 * m + 3), List.map_append, List.map_append, List.append_assoc]
      simp only [List.map_cons, List.map_nil, List.flatMap_cons, List.flatMap_nil]
      rw [if_neg (by omega), if_pos (by omega)]
      rfl
  unfold biPoints
  rw [h, List.map_map, List.zip_map']
  rfl

theorem convertToIndex_ok (x q : ℕ) (h : q ≤ x) : convertToIndex x ((x : ℤ) - 2 * q) = .ok q := by
  unfold convertToIndex
  split
  · rename_i hx
    have hf : (List.range ((List.range (x + 1)).map fun k : ℕ => (x : ℤ) - 2 * k).length).filter
        (fun k => ((List.range (x + 1)).map fun k : ℕ => (x : ℤ) - 2 * k)[k]? = some ((x : ℤ) - 2 * q))
        = [q] := by
      rw [← List.perm_singleton, List.perm_ext_iff_of_nodup (List.nodup_range.filter _) (by simp)]
      intro a
      simp only [List.length_map, List.length_range, List.mem_filter, List.mem_range,
        List.getElem?_map, decide_eq_true_eq, List.mem_singleton]
      constructor
      · rintro ⟨ha, hb⟩
        rw [List.getElem?_range ha] at hb
        simp at hb; omega
      · rintro rfl
        refine ⟨by omega, ?_⟩
        rw [List.getElem?_range (by omega)]; simp
    simp only [hf]
  · congr 1; omega

/-- The complete annotation list of the binomial plotter. -/
theorem biLabels_spec {M : Mat R} {n : ℕ} {V : ℕ → ℕ → R} {z : R} (hn : 0 < n) (hr : M.rows = n + 1)
    (hc : M.cols = n + 1) (he : ∀ a ≤ n, ∀ b ≤ n, M.entry a b = if a ≤ b then V b (b - a) else z) :
    ∃ L, biLabels M = .ok L ∧
      (∀ e ∈ L, ∃ x ≤ n, ∃ k ≤ x, e = ((x, 2 * (k : ℤ) - x), V x k)) ∧
      (∀ x ≤ n, ∀ k ≤ x, ((x, 2 * (k : ℤ) - x), V x k) ∈ L) := by
  -- the value annotated at point `p`
  let val : ℕ × ℤ → R := fun p => V p.1 (((p.1 : ℤ) + p.2) / 2).toNat
  have key : biLabels M = .ok ([] ++ (List.range n).flatMap fun i => (biPoints i).flatMap fun p => [(p, val p)]) := by
    unfold biLabels
    rw [hc, Nat.add_sub_cancel]
    refine foldlM_append_ok (fun i hi acc => ?_) []
    have hi' : i < n := List.mem_range.1 hi
    refine foldlM_append_ok (fun p hp acc => ?_) acc
    rw [biPoints_eq] at hp
    obtain ⟨k, hk, rfl⟩ := List.mem_map.1 hp
    have hk' := List.mem_range.1 hk
    have hx : (if k % 2 = 0 then 1 else 0) + i ≤ n := by split <;> omega
    have hq : k / 2 ≤ (if k % 2 = 0 then 1 else 0) + i := by split <;> omega
    have hy : (i : ℤ) + 1 - k = (((if k % 2 = 0 then 1 else 0) + i : ℕ) : ℤ) - 2 * ((k / 2 : ℕ) : ℤ) := by
      split <;> push_cast <;> omega
    have hup : ((((if k % 2 = 0 then 1 else 0) + i : ℕ) : ℤ) + ((i : ℤ) + 1 - k)) / 2
        = (((if k % 2 = 0 then 1 else 0) + i - k / 2 : ℕ) : ℤ) := by
      split <;> push_cast <;> omega
    simp only [val]
    rw [hup, Int.toNat_natCast, hy, convertToIndex_ok _ _ hq]
    simp only [bind, Except.bind, Mat.get, hr, hc]
    rw [if_pos ⟨by omega, by omega⟩]
    simp only [pure, Except.pure]
    rw [he _ (by omega) _ hx, if_pos hq]
  refine ⟨_, key, ?_, ?_⟩
  · intro e hm
    simp only [List.nil_append, List.mem_flatMap, List.mem_singleton] at hm
    obtain ⟨i, hi, p, hp, rfl⟩ := hm
    have hi' := List.mem_range.1 hi
    rw [biPoints_eq] at hp
    obtain ⟨k, hk, rfl⟩ := List.mem_map.1 hp
    have hk' := List.mem_range.1 hk
    refine ⟨(if k % 2 = 0 then 1 else 0) + i, by split <;> omega,
      (if k % 2 = 0 then 1 else 0) + i - k / 2, by omega, ?_⟩
    have hup : ((((if k % 2 = 0 then 1 else 0) + i : ℕ) : ℤ) + ((i : ℤ) + 1 - k)) / 2
        = (((if k % 2 = 0 then 1 else 0) + i - k / 2 : ℕ) : ℤ) := by
      split <;> push_cast <;> omega
    simp only [val]
    rw [hup, Int.toNat_natCast]
    simp only [Prod.mk.injEq, and_true, true_and]
    split <;> push_cast <;> omega
  · intro x hx k hk
    simp only [List.nil_append, List.mem_flatMap, List.mem_singleton]
    have hv : val (x, 2 * (k : ℤ) - x) = V x k := by
      simp only [val]; congr 1; omega
    rcases Nat.eq_zero_or_pos x with rfl | hx0
    · refine ⟨0, List.mem_range.2 hn, (0, 2 * (k : ℤ) - (0 : ℕ)), ?_, by rw [hv]⟩
      rw [biPoints_eq]
      refine List.mem_map.2 ⟨1, by simp, ?_⟩
      simp; omega
    · refine ⟨x - 1, List.mem_range.2 (by omega), (x, 2 * (k : ℤ) - x), ?_, by rw [hv]⟩
      rw [biPoints_eq]
      refine List.mem_map.2 ⟨2 * (x - k), List.mem_range.2 (by omega), ?_⟩
      rw [if_pos (by omega)]
      ext <;> simp <;> omega

/-- The complete annotation list of the trinomial plotter. -/
theorem triLabels_spec {M : Mat R} {n : ℕ} {V : ℕ → ℕ → R} {z : R} (hr : M.rows = 2 * n + 1)
    (hc : M.cols = n + 1)
    (he : ∀ a ≤ 2 * n, ∀ i ≤ n, M.entry a i = if n - i ≤ a ∧ a ≤ n + i then V i (n + i - a) else z) :
    ∃ L, triLabels M = .ok L ∧
      (∀ e ∈ L, ∃ i ≤ n, ∃ k ≤ 2 * i, e = ((i, (k : ℤ) - i), V i k)) ∧
      (∀ i ≤ n, ∀ k ≤ 2 * i, ((i, (k : ℤ) - i), V i k) ∈ L) := by
  let lab : ℕ → ℤ → ℤ → (ℕ × ℤ) × R := fun i j c => ((i, j + c), V i ((i : ℤ) + (j + c)).toNat)
  have hnode : ∀ i, 0 < i → i ≤ n → ∀ j : ℤ, -(i : ℤ) + 1 ≤ j → j ≤ i - 1 → ∀ acc,
      triNode M (i - 1) j acc = .ok (acc ++ ([-1, 0, 1] : List ℤ).flatMap fun c => [lab i j c]) := by
    intro i hi0 hi j hj1 hj2 acc
    unfold triNode
    refine foldlM_append_ok (fun c hcm acc => ?_) acc
    have hc1 : -1 ≤ c ∧ c ≤ 1 := by
      simp only [List.mem_cons, List.not_mem_nil, or_false] at hcm
      omega
    have h0 : (0 : ℤ) ≤ -(j + c) + ((M.cols - 1 : ℕ) : ℤ) := by rw [hc]; push_cast; omega
    rw [getRow, if_pos h0, Mat.get, if_pos ⟨by rw [hr]; omega, by rw [hc]; omega⟩]
    simp only [bind, Except.bind, pure, Except.pure, lab]
    rw [Nat.sub_add_cancel hi0, he _ (by omega) i hi, if_pos (by omega)]
    rw [hc, show n + i - (-(j + c) + ((n + 1 - 1 : ℕ) : ℤ)).toNat = ((i : ℤ) + (j + c)).toNat by omega]
  have key : triLabels M = .ok (([] ++ (List.range (n + 1)).flatMap fun i =>
      ((List.range (2 * i - 1)).map fun k : ℕ => -(i : ℤ) + 1 + k).flatMap fun j =>
        ([-1, 0, 1] : List ℤ).flatMap fun c => [lab i j c]) ++ [((0, 0), V 0 0)]) := by
    unfold triLabels
    rw [hc, Nat.add_sub_cancel]
    simp only []
    rw [foldlM_append_ok (h := fun i => ((List.range (2 * i - 1)).map fun k : ℕ => -(i : ℤ) + 1 + k).flatMap
      fun j => ([-1, 0, 1] : List ℤ).flatMap fun c => [lab i j c])]
    · simp only [bind, Except.bind, Mat.get, hr, hc]
      rw [if_pos ⟨by omega, by omega⟩]
      simp only [pure, Except.pure]
      rw [he n (by omega) 0 (by omega), if_pos (by omega)]
      simp
    · intro i hi acc
      refine foldlM_append_ok (fun j hj acc => ?_) acc
      obtain ⟨k, hk, rfl⟩ := List.mem_map.1 hj
      have hk' := List.mem_range.1 hk
      have hi' := List.mem_range.1 hi
      exact hnode i (by omega) (by omega) _ (by omega) (by omega) acc
  refine ⟨_, key, ?_, ?_⟩
  · intro e hm
    simp only [List.nil_append, List.mem_append, List.mem_flatMap, List.mem_singleton] at hm
    rcases hm with ⟨i, hi, j, hj, c, hcm, rfl⟩ | rfl
    · obtain ⟨k, hk, rfl⟩ := List.mem_map.1 hj
      have hk' := List.mem_range.1 hk
      have hi' := List.mem_range.1 hi
      have hc1 : -1 ≤ c ∧ c ≤ 1 := by
        simp only [List.mem_cons, List.not_mem_nil, or_false] at hcm
        omega
      refine ⟨i, by omega, ((i : ℤ) + (-(i : ℤ) + 1 + k + c)).toNat, by omega, ?_⟩
      simp only [lab, Prod.mk.injEq, true_and, and_true]
      omega
    · exact ⟨0, by omega, 0, by omega, by simp⟩
  · intro i hi k hk
    simp only [List.nil_append, List.mem_append, List.mem_flatMap, List.mem_singleton]
    rcases Nat.eq_zero_or_pos i with rfl | hi0
    · right; have : k = 0 := by omega
      subst this; simp
    · left
      have main : ∀ (q : ℕ) (c : ℤ), q < 2 * i - 1 → c ∈ ([-1, 0, 1] : List ℤ) → (1 : ℤ) + q + c = k →
          ∃ a ∈ List.range (n + 1), ∃ a_1 ∈ (List.range (2 * a - 1)).map fun k : ℕ => -(a : ℤ) + 1 + k,
            ∃ a_2 ∈ ([-1, 0, 1] : List ℤ), ((i, (k : ℤ) - i), V i k) = lab a a_1 a_2 := by
        intro q c hq hcm hs
        refine ⟨i, List.mem_range.2 (by omega), -(i : ℤ) + 1 + q, List.mem_map.2 ⟨q, List.mem_range.2 hq, rfl⟩,
          c, hcm, ?_⟩
        simp only [lab, Prod.mk.injEq, true_and]
        refine ⟨by omega, ?_⟩
        congr 1; omega
      by_cases h1 : k = 0
      · exact main 0 (-1) (by omega) (by simp) (by push_cast; omega)
      · by_cases h2 : k = 2 * i
        · exact main (2 * i - 2) 1 (by omega) (by simp) (by omega)
        · exact main (k - 1) 0 (by omega) (by simp) (by omega)

end Verif
