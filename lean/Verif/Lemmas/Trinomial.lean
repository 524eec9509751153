import Verif.Model.TreeSpread
import Verif.Spec.Trinomial
import Mathlib.Algebra.BigOperators.Field
import Mathlib.Tactic.Ring
import Mathlib.Tactic.Linarith
import Mathlib.Tactic.FieldSimp
import Mathlib.Tactic.Positivity

/-!
Trinomial weights and the rollback of `TrinomialSpreadOption`.
-/
namespace Verif.TreeSpread
open Verif.Spec

/-! ### Weights -/

/-- One-dimensional mean. -/
noncomputable def mean1 (k : ℕ) (f : ℕ → ℝ) : ℝ := ∑ i ∈ Finset.range (2 * k + 1), tri k i * f i

/-- One step of the mean. -/
noncomputable def avg (f : ℕ → ℝ) (i : ℕ) : ℝ := f i / 6 + f (i + 1) * (2 / 3) + f (i + 2) / 6

theorem tri_zero_of_lt {k i : ℕ} (h : 2 * k < i) : tri k i = 0 := by
  induction k generalizing i with
  | zero => simp only [tri]; rw [if_neg (by omega)]
  | succ k ih =>
    match i with
    | 0 => omega
    | 1 => omega
    | i + 2 => rw [tri, ih (by omega), ih (by omega), ih (by omega)]; simp

theorem tri_nonneg (k i : ℕ) : 0 ≤ tri k i := by
  induction k generalizing i with
  | zero => simp only [tri]; split <;> norm_num
  | succ k ih =>
    match i with
    | 0 => rw [tri]; have := ih 0; positivity
    | 1 => rw [tri]; have := ih 0; have := ih 1; positivity
    | i + 2 => rw [tri]; have := ih i; have := ih (i + 1); have := ih (i + 2); positivity

theorem mean1_zero (f : ℕ → ℝ) : mean1 0 f = f 0 := by simp [mean1, tri]

theorem mean1_succ (k : ℕ) (f : ℕ → ℝ) : mean1 (k + 1) f = mean1 k (avg f) := by
  have e : mean1 k (avg f) = (∑ i ∈ Finset.range (2 * k + 1), tri k i * f i) / 6
      + (∑ i ∈ Finset.range (2 * k + 1), tri k i * f (i + 1)) * (2 / 3)
      + (∑ i ∈ Finset.range (2 * k + 1), tri k i * f (i + 2)) / 6 := by
    rw [mean1, Finset.sum_div, Finset.sum_mul, Finset.sum_div, ← Finset.sum_add_distrib, ← Finset.sum_add_distrib]
    refine Finset.sum_congr rfl fun i _ => ?_
    rw [avg]; ring
  have z1 : tri k (2 * k + 1) = 0 := tri_zero_of_lt (by omega)
  have z2 : tri k (2 * k + 2) = 0 := tri_zero_of_lt (by omega)
  have h0 : ∑ i ∈ Finset.range (2 * k + 1), tri k i * f i
      = ∑ i ∈ Finset.range (2 * k + 1), tri k (i + 2) * f (i + 2) + tri k 1 * f 1 + tri k 0 * f 0 := by
    rw [← Finset.sum_range_succ' (fun i => tri k (i + 1) * f (i + 1)), ← Finset.sum_range_succ' (fun i => tri k i * f i),
      Finset.sum_range_succ _ (2 * k + 2), Finset.sum_range_succ _ (2 * k + 1), z1, z2]
    simp
  have h1 : ∑ i ∈ Finset.range (2 * k + 1), tri k i * f (i + 1)
      = ∑ i ∈ Finset.range (2 * k + 1), tri k (i + 1) * f (i + 2) + tri k 0 * f 1 := by
    rw [← Finset.sum_range_succ' (fun i => tri k i * f (i + 1)), Finset.sum_range_succ _ (2 * k + 1), z1]
    simp
  rw [e, h0, h1, mean1, show 2 * (k + 1) + 1 = 2 * k + 1 + 1 + 1 by ring, Finset.sum_range_succ', Finset.sum_range_succ']
  simp only [tri]
  have : ∑ i ∈ Finset.range (2 * k + 1), (tri k (i + 2) / 6 + tri k (i + 1) * (2 / 3) + tri k i / 6) * f (i + 1 + 1)
      = (∑ i ∈ Finset.range (2 * k + 1), tri k (i + 2) * f (i + 2)) / 6
        + (∑ i ∈ Finset.range (2 * k + 1), tri k (i + 1) * f (i + 2)) * (2 / 3)
        + (∑ i ∈ Finset.range (2 * k + 1), tri k i * f (i + 2)) / 6 := by
    rw [Finset.sum_div, Finset.sum_mul, Finset.sum_div, ← Finset.sum_add_distrib, ← Finset.sum_add_distrib]
    refine Finset.sum_congr rfl fun i _ => ?_
    ring
  rw [this]
  ring

theorem mean1_const (k : ℕ) (c : ℝ) : mean1 k (fun _ => c) = c := by
  induction k with
  | zero => rw [mean1_zero]
  | succ k ih =>
    rw [mean1_succ, show avg (fun _ => c) = fun _ => c by funext i; rw [avg]; ring, ih]

theorem sum_tri (k : ℕ) : ∑ i ∈ Finset.range (2 * k + 1), tri k i = 1 := by
  have := mean1_const k 1
  simpa [mean1] using this

theorem mean1_lin (k : ℕ) (c : ℝ) : mean1 k (fun i => (i : ℝ) - c) = k - c := by
  induction k generalizing c with
  | zero => rw [mean1_zero]
  | succ k ih =>
    rw [mean1_succ, show avg (fun i => (i : ℝ) - c) = fun i : ℕ => (i : ℝ) - (c - 1) by
      funext i; rw [avg]; push_cast; ring, ih]
    push_cast; ring

theorem mean1_add (k : ℕ) (f g : ℕ → ℝ) : mean1 k (fun i => f i + g i) = mean1 k f + mean1 k g := by
  simp only [mean1, ← Finset.sum_add_distrib, mul_add]

theorem mean1_mul (k : ℕ) (c : ℝ) (f : ℕ → ℝ) : mean1 k (fun i => c * f i) = c * mean1 k f := by
  simp only [mean1, Finset.mul_sum]
  exact Finset.sum_congr rfl fun i _ => by ring

theorem mean1_sq (k : ℕ) (c : ℝ) : mean1 k (fun i => ((i : ℝ) - c) ^ 2) = (k - c) ^ 2 + k / 3 := by
  induction k generalizing c with
  | zero => rw [mean1_zero]; push_cast; ring
  | succ k ih =>
    rw [mean1_succ, show avg (fun i => ((i : ℝ) - c) ^ 2) = fun i : ℕ => ((i : ℝ) - (c - 1)) ^ 2 + 1 / 3 by
      funext i; rw [avg]; push_cast; ring, mean1_add k (fun i : ℕ => ((i : ℝ) - (c - 1)) ^ 2) (fun _ => 1 / 3), ih, mean1_const]
    push_cast; ring

theorem latticeMean_eq (n : ℕ) (f : ℕ → ℕ → ℝ) : latticeMean n f = mean1 n (fun i => mean1 n (fun j => f i j)) := by
  simp only [latticeMean, mean1, Finset.mul_sum]
  exact Finset.sum_congr rfl fun i _ => Finset.sum_congr rfl fun j _ => by ring

/-! ### Rollback -/

/-- The window is one step of the mean in both directions. -/
theorem window_eq (m : Mat) (i j : ℕ) : window m i j = avg (fun a => avg (m.val a) j) i := by
  simp [window, List.range_succ, pm, avg]
  ring

theorem window_congr {m m' : Mat} {i j i' j' : ℕ}
    (h : ∀ a < 3, ∀ b < 3, m.val (i + a) (j + b) = m'.val (i' + a) (j' + b)) : window m i j = window m' i' j' := by
  simp only [window]
  congr 1
  apply List.map_congr_left
  intro a ha
  congr 1
  apply List.map_congr_left
  intro b hb
  rw [h a (List.mem_range.1 ha) b (List.mem_range.1 hb)]

theorem inner_fold (g : ℕ → ℕ → ℝ) (i : ℕ) (l : List ℕ) (m : Mat) (a b : ℕ) :
    (l.foldl (fun m j => m.set i (j - 1) (g i (j - 1))) m).val a b
      = if a = i ∧ b ∈ l.map (· - 1) then g a b else m.val a b := by
  induction l generalizing m with
  | nil => simp
  | cons j l ih =>
    rw [List.foldl_cons, ih]
    simp only [Mat.set, List.map_cons, List.mem_cons]
    by_cases h1 : a = i <;> by_cases h2 : b ∈ l.map (· - 1) <;> by_cases h3 : b = j - 1 <;> simp [h1, h2, h3]

theorem inner_size (g : ℕ → ℕ → ℝ) (i : ℕ) (l : List ℕ) (m : Mat) :
    (l.foldl (fun m j => m.set i (j - 1) (g i (j - 1))) m).size = m.size := by
  induction l generalizing m with
  | nil => rfl
  | cons j l ih => rw [List.foldl_cons, ih]; rfl

theorem outer_fold (g : ℕ → ℕ → ℝ) (l l' : List ℕ) (m : Mat) (a b : ℕ) :
    (l'.foldl (fun m i => l.foldl (fun m j => m.set (i - 1) (j - 1) (g (i - 1) (j - 1))) m) m).val a b
      = if a ∈ l'.map (· - 1) ∧ b ∈ l.map (· - 1) then g a b else m.val a b := by
  induction l' generalizing m with
  | nil => simp
  | cons i l' ih =>
    rw [List.foldl_cons, ih, inner_fold]
    simp only [List.map_cons, List.mem_cons]
    by_cases h1 : a ∈ l'.map (· - 1) <;> by_cases h2 : b ∈ l.map (· - 1) <;> by_cases h3 : a = i - 1 <;> simp [h1, h2, h3]

theorem outer_size (g : ℕ → ℕ → ℝ) (l l' : List ℕ) (m : Mat) :
    (l'.foldl (fun m i => l.foldl (fun m j => m.set (i - 1) (j - 1) (g (i - 1) (j - 1))) m) m).size = m.size := by
  induction l' generalizing m with
  | nil => rfl
  | cons i l' ih => rw [List.foldl_cons, ih, inner_size]

theorem mem_pred (a k : ℕ) : a ∈ (List.range' 1 k).map (· - 1) ↔ a < k := by
  simp only [List.mem_map, List.mem_range'_1]
  constructor
  · rintro ⟨x, hx, rfl⟩; omega
  · intro h; exact ⟨a + 1, by omega, by omega⟩

theorem calcNodes_val (tr ntr : Mat) (d : ℝ) (a b : ℕ) (ha : a < tr.size - 2) (hb : b < tr.size - 2) :
    (calcNodes tr ntr d).val a b = window tr a b * d := by
  rw [calcNodes, outer_fold (fun i j => window tr i j * d), if_pos ⟨(mem_pred _ _).2 ha, (mem_pred _ _).2 hb⟩]

theorem calcNodes_size (tr ntr : Mat) (d : ℝ) : (calcNodes tr ntr d).size = ntr.size := by
  rw [calcNodes, outer_size (fun i j => window tr i j * d)]

/-- Mean over both directions of a function shifted by `(i, j)`. -/
noncomputable def mean2 (k : ℕ) (f : ℕ → ℕ → ℝ) (i j : ℕ) : ℝ :=
  mean1 k fun a => mean1 k fun b => f (i + a) (j + b)

theorem mean1_congr {k : ℕ} {f g : ℕ → ℝ} (h : ∀ i ≤ 2 * k, f i = g i) : mean1 k f = mean1 k g :=
  Finset.sum_congr rfl fun i hi => by rw [h i (by have := Finset.mem_range.1 hi; omega)]

theorem mean1_avg (k : ℕ) (F : ℕ → ℕ → ℝ) (j : ℕ) :
    avg (fun x => mean1 k (F x)) j = mean1 k (fun b => avg (fun x => F x b) j) := by
  have : (fun b => avg (fun x => F x b) j) = fun b => (1 / 6) * F j b + ((2 / 3) * F (j + 1) b + (1 / 6) * F (j + 2) b) := by
    funext b; rw [avg]; ring
  rw [this, mean1_add, mean1_add, mean1_mul, mean1_mul, mean1_mul, avg]; ring

/-- One more rollback step. -/
theorem mean2_succ (k : ℕ) (f : ℕ → ℕ → ℝ) (i j : ℕ) :
    avg (fun a => avg (mean2 k f a) j) i = mean2 (k + 1) f i j := by
  have e1 : ∀ a, avg (mean2 k f a) j = mean1 k fun c => mean1 (k + 1) fun b => f (a + c) (j + b) := by
    intro a
    have : mean2 k f a = fun x => mean1 k ((fun x c => mean1 k fun b => f (a + c) (x + b)) x) := rfl
    rw [this, mean1_avg]
    refine mean1_congr fun c _ => ?_
    rw [mean1_avg k (fun x b => f (a + c) (x + b)), mean1_succ]
    refine mean1_congr fun b _ => ?_
    simp only [avg]
    rw [show j + 1 + b = j + (b + 1) by ring, show j + 2 + b = j + (b + 2) by ring]
  simp only [e1]
  rw [mean1_avg k (fun a c => mean1 (k + 1) fun b => f (a + c) (j + b)), mean2, mean1_succ]
  refine mean1_congr fun c _ => ?_
  simp only [avg]
  rw [show i + 1 + c = i + (c + 1) by ring, show i + 2 + c = i + (c + 2) by ring]

/-- State of the loop after `k` steps. -/
theorem euro_loop (V : Mat) (n : ℕ) (d : ℝ) (hV : V.size = 2 * n + 1) (k : ℕ) (hk : k < n) :
    ∃ old : Mat, ∃ tr : List Mat,
      (List.range' 1 k).foldl (euroBody n d) (V, []) = (old, tr) ∧ old.size = 2 * (n - k) + 1 ∧
      (∀ i ≤ 2 * (n - k), ∀ j ≤ 2 * (n - k), old.val i j = d ^ k * mean2 k V.val i j) ∧
      (0 < k → tr.getLast? = some (pad old k)) := by
  induction k with
  | zero => exact ⟨V, [], rfl, by rw [hV]; simp, fun i _ j _ => by simp [mean2, mean1_zero], by simp⟩
  | succ k ih =>
    obtain ⟨old, tr, h1, h2, h3, -⟩ := ih (by omega)
    rw [List.range'_1_concat, List.foldl_append, h1]
    refine ⟨calcNodes old ⟨2 * (n - (k + 1)) + 1, fun _ _ => 0⟩ d,
      tr ++ [pad (calcNodes old ⟨2 * (n - (k + 1)) + 1, fun _ _ => 0⟩ d) (k + 1)], ?_, ?_, ?_, ?_⟩
    · simp only [List.foldl_cons, List.foldl_nil, euroBody, Nat.add_comm 1 k]
    · rw [calcNodes_size]
    · intro i hi j hj
      rw [calcNodes_val _ _ _ _ _ (by omega) (by omega),
        window_congr (m' := ⟨0, fun i j => d ^ k * mean2 k V.val i j⟩) (i' := i) (j' := j)
          (fun a ha b hb => h3 _ (by omega) _ (by omega)), window_eq]
      rw [← mean2_succ]
      simp only [avg]
      ring
    · intro _
      simp

theorem call_eq (p : Par) (n : ℕ) (hn : 2 ≤ n) :
    call p n = .ok (Df p (p.t / n) ^ n
      * latticeMean n (fun i j => max 0 (S1T p n i j - S2T p n i j - p.K))) := by
  obtain ⟨old, tr, h1, h2, h3, h4⟩ := euro_loop
    ⟨2 * n + 1, fun i j => max 0 (((S1T p n i j - S2T p n i j) - p.K) * 1)⟩ n (Df p (p.t / n)) rfl (n - 1) (by omega)
  have hl : (euro ⟨2 * n + 1, fun i j => max 0 (((S1T p n i j - S2T p n i j) - p.K) * 1)⟩ n (Df p (p.t / n))).getLast?
      = some (pad old (n - 1)) := by
    rw [euro, h1]; exact h4 (by omega)
  have hw : window (pad old (n - 1)) (n - 1) (n - 1) = window old 0 0 := by
    apply window_congr
    intro a ha b hb
    simp only [pad]
    rw [if_pos (by omega)]
    congr 1 <;> omega
  simp only [call, if_neg (show n ≠ 0 by omega), hl]
  show Except.ok _ = _
  congr 1
  rw [hw, window_congr (m' := ⟨0, fun i j => Df p (p.t / n) ^ (n - 1)
      * mean2 (n - 1) (fun i j => max 0 (((S1T p n i j - S2T p n i j) - p.K) * 1)) i j⟩) (i' := 0) (j' := 0)
      (fun a ha b hb => h3 _ (by omega) _ (by omega)), window_eq]
  have : ∀ (c : ℝ) (F : ℕ → ℕ → ℝ), avg (fun a => avg (fun b => c * F a b) 0) 0 = c * avg (fun a => avg (F a) 0) 0 := by
    intro c F; simp only [avg]; ring
  rw [this, mean2_succ, show n - 1 + 1 = n by omega, latticeMean_eq, mean2]
  simp only [zero_add, mul_one]
  conv_rhs => rw [show n = n - 1 + 1 by omega, pow_succ]
  simp only [show n - 1 + 1 = n by omega]
  ring

theorem call_one (p : Par) : call p 1 = .error .indexError := rfl

theorem call_zero (p : Par) : call p 0 = .error .zeroDivision := rfl

end Verif.TreeSpread
