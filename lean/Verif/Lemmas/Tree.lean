import Verif.Lemmas.Sweep
import Verif.Spec.Lattice
import Mathlib.Algebra.BigOperators.Ring.Finset
import Mathlib.Data.Nat.Choose.Sum
import Mathlib.Tactic.Linarith
import Mathlib.Tactic.Ring
import Mathlib.Tactic.FieldSimp
import Mathlib.Tactic.Positivity

/-! Lattice lemmas: the loops compute the specified backward induction. -/
set_option linter.unusedSectionVars false

namespace Verif
open Py Spec _root_.Verif.Tree

section generic
variable {R : Type} [Field R] [LinearOrder R] [IsStrictOrderedRing R]

theorem absmax (x : R) : (|x| + x) / 2 = max x 0 := by
  rcases le_total 0 x with h | h
  · rw [abs_of_nonneg h, max_eq_left h]; ring
  · rw [abs_of_nonpos h, max_eq_right h]; ring

theorem z_intrinsic (isCall : Bool) (s K : R) : zOf isCall * (s - K) = intrinsic isCall s K := by
  cases isCall <;> simp [zOf, intrinsic]

theorem payoff_eq (isCall : Bool) (s K : R) : payoff isCall s K = max (intrinsic isCall s K) 0 := by
  cases isCall <;> simp [payoff, intrinsic]

theorem terminal_eq (isCall : Bool) (S K u d : R) (n : ℕ) :
    terminal S K u d (zOf isCall) n
      = (List.range (n + 1)).map fun k => payoff isCall (node S u d n k) K := by
  unfold terminal
  simp only [absmax, z_intrinsic, payoff_eq, node]

/-- Conclusion shared by both exercise styles. -/
def RollSpec (V : ℕ → ℕ → R) (n : ℕ) (res : Except PyErr (List R × List R)) : Prop :=
  ∃ ov tr, res = .ok (ov, tr) ∧ ov[0]? = some (V 0 0) ∧
    tr.reverse = (List.range (n + 1)).flatMap (fun q => ((List.range (q + 1)).map (V q)).reverse
        ++ List.replicate (n - q) 0)

theorem flat_last (V : ℕ → ℕ → R) (n : ℕ) :
    (List.range (n + 1)).flatMap (fun q => ((List.range (q + 1)).map (V q)).reverse
        ++ List.replicate (n - q) 0)
      = (List.range n).flatMap (fun q => ((List.range (q + 1)).map (V q)).reverse
        ++ List.replicate (n - q) 0) ++ ((List.range (n + 1)).map (V n)).reverse := by
  rw [List.range_succ (n := n), List.flatMap_append]
  simp [List.range_succ]

theorem roll_euro {isCall : Bool} {S K u d p Df : R} {n : ℕ} {V : ℕ → ℕ → R}
    (hV : IsEuropean isCall S K u d p Df n V) :
    RollSpec V n (roll S K u d p Df (zOf isCall) n "european") := by
  have ht : terminal S K u d (zOf isCall) n = (List.range (n + 1)).map (V n) := by
    rw [terminal_eq]
    refine List.map_congr_left fun k hk => (hV.terminal k ?_).symm
    have := List.mem_range.1 hk; omega
  obtain ⟨ov, tr, h1, h2, h3, h4⟩ := rollback (R := R)
    (fun _ i l => do
      let hi ← getI l (i + 1)
      let lo ← getI l i
      return (p * hi + (1 - p) * lo) * Df)
    (fun j => j + 1) (fun j => n - j) V (n + 1) n ((List.range (n + 1)).map (V n))
    ((List.range (n + 1)).map (V n)) (by simp) (by intros; omega)
    (fun k hk => by simp [hk])
    (by
      intro q hq i hi l hl hk
      rw [getI_ok (hk (i + 1) (by omega) (by omega)), getI_ok (hk i (by omega) (by omega))]
      simp only [bind, Except.bind, pure, Except.pure]
      rw [hV.back q hq i (by omega)]; congr 1; ring)
  refine ⟨ov, tr, ?_, h3 0 (by omega), ?_⟩
  · simp only [roll, if_true, euro, ht]
    rw [← h1]
    simp only [bind_assoc, pure_bind]
  · rw [h4, flat_last]

theorem absDiff_le {i j : ℕ} (h : i ≤ j) : absDiff i j = j - i := by
  simp [absDiff, Nat.sub_eq_zero_of_le h]

theorem roll_amer {isCall : Bool} {S K u d p Df : R} {n : ℕ} {V : ℕ → ℕ → R}
    (hV : IsAmerican isCall S K u d p Df n V) :
    RollSpec V n (roll S K u d p Df (zOf isCall) n "american") := by
  have ht : terminal S K u d (zOf isCall) n = (List.range (n + 1)).map (V n) := by
    rw [terminal_eq]
    refine List.map_congr_left fun k hk => (hV.terminal k ?_).symm
    have := List.mem_range.1 hk; omega
  obtain ⟨ov, tr, h1, h2, h3, h4⟩ := rollback (R := R)
    (fun j i l => do
      let hi ← getI l (i + 1)
      let lo ← getI l i
      return max (zOf isCall * (S * u ^ i * d ^ (absDiff i j) - K)) ((p * hi + (1 - p) * lo) * Df))
    (fun j => j + 1) (fun j => n - j) V (n + 1) n ((List.range (n + 1)).map (V n))
    ((List.range (n + 1)).map (V n)) (by simp) (by intros; omega)
    (fun k hk => by simp [hk])
    (by
      intro q hq i hi l hl hk
      rw [getI_ok (hk (i + 1) (by omega) (by omega)), getI_ok (hk i (by omega) (by omega))]
      simp only [bind, Except.bind, pure, Except.pure]
      rw [hV.back q hq i (by omega), z_intrinsic, absDiff_le (by omega)]
      congr 2; ring)
  refine ⟨ov, tr, ?_, h3 0 (by omega), ?_⟩
  · simp only [roll, if_true, if_false, amer, ht, show ("american" = "european") = False by decide]
    rw [← h1]
    simp only [bind_assoc, pure_bind]
  · rw [h4, flat_last]

theorem RollSpec.calcPrice {V : ℕ → ℕ → R} {n : ℕ} {S K u d p Df z : R} {type : String}
    (h : RollSpec V n (roll S K u d p Df z n type)) :
    Tree.calcPrice S K u d p Df z n type = .ok (V 0 0) := by
  obtain ⟨ov, tr, h1, h2, -⟩ := h
  simp [Tree.calcPrice, h1, bind, Except.bind, getI_ok h2]

theorem RollSpec.calcTree {V : ℕ → ℕ → R} {n : ℕ} {S K u d p Df z : R} {type : String}
    (h : RollSpec V n (roll S K u d p Df z n type)) :
    ∃ M : Mat R, Tree.calcTree S K u d p Df z n type = .ok M ∧ M.rows = n + 1 ∧ M.cols = n + 1 ∧
      ∀ a ≤ n, ∀ b ≤ n, M.entry a b = if a ≤ b then V b (b - a) else 0 := by
  obtain ⟨ov, tr, h1, -, h3⟩ := h
  have hblk : ∀ q < n + 1, (((List.range (q + 1)).map (V q)).reverse
        ++ List.replicate (n - q) 0).length = n + 1 := by
    intro q hq; simp; omega
  have hlen : tr.length = (n + 1) * (n + 1) := by
    rw [← List.length_reverse, h3, length_blocks hblk]
  refine ⟨⟨n + 1, n + 1, fun a b => tr.reverse.getD (b * (n + 1) + a) 0⟩, ?_, rfl, rfl, ?_⟩
  · simp [Tree.calcTree, h1, bind, Except.bind, reshapeT, hlen]
  · intro a ha b hb
    simp only [List.getD_eq_getElem?_getD]
    rw [h3, getElem?_blocks hblk (by omega) (by omega)]
    by_cases hab : a ≤ b
    · rw [if_pos hab, List.getElem?_append_left (by simp; omega),
        List.getElem?_reverse (by simp; omega)]
      simp [Nat.lt_succ_of_le (Nat.sub_le b a)]
    · rw [if_neg hab, List.getElem?_append_right (by simp; omega)]
      rw [List.getElem?_replicate]
      split <;> simp

/-- Backward recursion, used to exhibit the value functions. -/
def bV (g : ℕ → ℕ → R → R → R) (f : ℕ → R) (n : ℕ) : ℕ → ℕ → R
  | 0, k => f k
  | m + 1, k => g (n - (m + 1)) k (bV g f n m (k + 1)) (bV g f n m k)

theorem exists_european (isCall : Bool) (S K u d p Df : R) (n : ℕ) :
    ∃ V, IsEuropean isCall S K u d p Df n V := by
  refine ⟨fun j k => bV (fun _ _ a b => Df * (p * a + (1 - p) * b))
    (fun k => payoff isCall (node S u d n k) K) n (n - j) k, ?_, ?_⟩
  · intro k _; simp [bV]
  · intro j hj k _
    obtain ⟨m, hm⟩ : ∃ m, n - j = m + 1 := ⟨n - j - 1, by omega⟩
    have : n - (j + 1) = m := by omega
    simp only [hm, this, bV]

theorem exists_american (isCall : Bool) (S K u d p Df : R) (n : ℕ) :
    ∃ V, IsAmerican isCall S K u d p Df n V := by
  refine ⟨fun j k => bV (fun j k a b => max (intrinsic isCall (node S u d j k) K)
    (Df * (p * a + (1 - p) * b)))
    (fun k => payoff isCall (node S u d n k) K) n (n - j) k, ?_, ?_⟩
  · intro k _; simp [bV]
  · intro j hj k _
    obtain ⟨m, hm⟩ : ∃ m, n - j = m + 1 := ⟨n - j - 1, by omega⟩
    have h1 : n - (j + 1) = m := by omega
    have h2 : n - (m + 1) = j := by omega
    simp only [hm, h1, h2, bV]

/-- Downward induction over levels. -/
theorem level_induction {n : ℕ} {P : ℕ → Prop} (hn : P n) (hs : ∀ j < n, P (j + 1) → P j) :
    ∀ j ≤ n, P j := by
  intro j hj
  obtain ⟨m, rfl⟩ := Nat.exists_eq_add_of_le hj
  clear hj
  induction m generalizing j with
  | zero => simpa using hn
  | succ m ih => exact hs j (by omega) (ih (j + 1) (by rwa [show j + 1 + m = j + (m + 1) by omega])
      (by intro q hq; exact hs q (by omega)))

/-- One binomial step of the expectation (Pascal's rule). -/
theorem binomialExpectation_succ (Df p : R) (m : ℕ) (f : ℕ → R) :
    binomialExpectation Df p (m + 1) f
      = Df * (p * binomialExpectation Df p m (fun k => f (k + 1))
        + (1 - p) * binomialExpectation Df p m f) := by
  unfold binomialExpectation
  have h1 : ∑ k ∈ Finset.range (m + 2), ((m + 1).choose k : R) * p ^ k * (1 - p) ^ (m + 1 - k) * f k
      = p * ∑ k ∈ Finset.range (m + 1), (m.choose k : R) * p ^ k * (1 - p) ^ (m - k) * f (k + 1)
        + (1 - p) * ∑ k ∈ Finset.range (m + 1), (m.choose k : R) * p ^ k * (1 - p) ^ (m - k) * f k := by
    rw [Finset.sum_range_succ', Finset.mul_sum, Finset.mul_sum]
    have e1 : ∀ k ∈ Finset.range (m + 1),
        ((m + 1).choose (k + 1) : R) * p ^ (k + 1) * (1 - p) ^ (m + 1 - (k + 1)) * f (k + 1)
        = p * ((m.choose k : R) * p ^ k * (1 - p) ^ (m - k) * f (k + 1))
          + (m.choose (k + 1) : R) * p ^ (k + 1) * (1 - p) ^ (m - k) * f (k + 1) := by
      intro k _
      rw [Nat.choose_succ_succ, Nat.cast_add, show m + 1 - (k + 1) = m - k by omega]
      ring
    rw [Finset.sum_congr rfl e1, Finset.sum_add_distrib, add_assoc]
    congr 1
    rw [Finset.sum_range_succ, Nat.choose_succ_self]
    rw [Finset.sum_range_succ']
    simp only [Nat.cast_zero, zero_mul, add_zero, Nat.choose_zero_right, Nat.cast_one, pow_zero,
      Nat.sub_zero, one_mul]
    congr 1
    · refine Finset.sum_congr rfl fun k hk => ?_
      have : m - k = (m - (k + 1)) + 1 := by have := Finset.mem_range.1 hk; omega
      rw [this, pow_succ (1 - p)]; ring
    · rw [pow_succ]; ring
  rw [h1, pow_succ]; ring

/-- The European value at every node is the discounted binomial expectation over the remaining steps. -/
theorem IsEuropean.value {isCall : Bool} {S K u d p Df : R} {n : ℕ} {V : ℕ → ℕ → R}
    (hV : IsEuropean isCall S K u d p Df n V) :
    ∀ j ≤ n, ∀ k ≤ j, V j k = binomialExpectation Df p (n - j)
      (fun i => payoff isCall (node S u d n (k + i)) K) := by
  refine level_induction ?_ ?_
  · intro k hk
    rw [hV.terminal k hk]; simp [binomialExpectation]
  · intro j hj ih k hk
    obtain ⟨m, hm⟩ : ∃ m, n - j = m + 1 := ⟨n - j - 1, by omega⟩
    have h1 : n - (j + 1) = m := by omega
    rw [hV.back j hj k hk, ih (k + 1) (by omega), ih k (by omega), hm, h1, binomialExpectation_succ]
    simp only [add_assoc, add_comm 1]

theorem binomialExpectation_sub (Df p : R) (n : ℕ) (f g : ℕ → R) :
    binomialExpectation Df p n f - binomialExpectation Df p n g
      = binomialExpectation Df p n (fun k => f k - g k) := by
  unfold binomialExpectation
  rw [← mul_sub, ← Finset.sum_sub_distrib]
  congr 1
  exact Finset.sum_congr rfl fun k _ => by ring

theorem binomialExpectation_affine (Df p S u d K : R) (n : ℕ) :
    binomialExpectation Df p n (fun k => node S u d n k - K)
      = S * (Df * (p * u + (1 - p) * d)) ^ n - K * Df ^ n := by
  unfold binomialExpectation
  have h1 : ∑ k ∈ Finset.range (n + 1), (n.choose k : R) * p ^ k * (1 - p) ^ (n - k) * (node S u d n k - K)
      = S * (p * u + (1 - p) * d) ^ n - K * (p + (1 - p)) ^ n := by
    rw [add_pow, add_pow, Finset.mul_sum, Finset.mul_sum, ← Finset.sum_sub_distrib]
    refine Finset.sum_congr rfl fun k _ => ?_
    rw [node, mul_pow, mul_pow]; ring
  rw [h1, mul_pow, show p + (1 - p) = 1 by ring, one_pow]; ring

theorem payoff_sub (s K : R) : payoff true s K - payoff false s K = s - K := by
  simp only [payoff, if_true, Bool.false_eq_true, if_false]
  rcases le_total s K with h | h
  · rw [max_eq_right (by linarith), max_eq_left (by linarith)]; ring
  · rw [max_eq_left (by linarith), max_eq_right (by linarith)]; ring

theorem intrinsic_le_payoff (isCall : Bool) (s K : R) : intrinsic isCall s K ≤ payoff isCall s K := by
  rw [payoff_eq]; exact le_max_left _ _

theorem payoff_nonneg (isCall : Bool) (s K : R) : 0 ≤ payoff isCall s K := by
  rw [payoff_eq]; exact le_max_right _ _

/-! ### Trinomial -/

def RollSpec3 (V : ℕ → ℕ → R) (n : ℕ) (res : Except PyErr (List R × List R)) : Prop :=
  ∃ ov tr, res = .ok (ov, tr) ∧ ov[0]? = some (V 0 0) ∧
    tr.reverse = (List.range (n + 1)).flatMap (fun q => ((List.range (2 * q + 1)).map (V q)).reverse)

theorem terminal3_eq (isCall : Bool) (S K u d : R) (n : ℕ) :
    terminal3 S K u d (zOf isCall) n
      = (List.range (2 * n + 1)).map fun k => payoff isCall (node3 S u d n k) K := by
  unfold terminal3
  refine List.map_congr_left fun k _ => ?_
  rw [show 2 * n - n - k = n - k by omega, z_intrinsic, payoff_eq, node3, max_comm]

theorem roll3_euro {isCall : Bool} {S K u d pu pm pd Df : R} {n : ℕ} {V : ℕ → ℕ → R}
    (hV : IsEuropean3 isCall S K u d pu pm pd Df n V) :
    RollSpec3 V n (roll3 S K u d pu pd pm Df (zOf isCall) n "european") := by
  have ht : terminal3 S K u d (zOf isCall) n = (List.range (2 * n + 1)).map (V n) := by
    rw [terminal3_eq]
    refine List.map_congr_left fun k hk => (hV.terminal k ?_).symm
    have := List.mem_range.1 hk; omega
  obtain ⟨ov, tr, h1, h2, h3, h4⟩ := rollback (R := R)
    (fun _ i l => euro3 i l Df pu pd pm)
    (fun j => 2 * j + 1) (fun _ => 0) V (2 * n + 1) n ((List.range (2 * n + 1)).map (V n))
    ((List.range (2 * n + 1)).map (V n)) (by simp) (by intros; omega)
    (fun k hk => by simp [hk])
    (by
      intro q hq i hi l hl hk
      unfold euro3
      rw [getI_ok (hk (i + 2) (by omega) (by omega)), getI_ok (hk (i + 1) (by omega) (by omega)),
        getI_ok (hk i (by omega) (by omega))]
      simp only [bind, Except.bind, pure, Except.pure]
      rw [hV.back q hq i (by omega)]; congr 1; ring)
  refine ⟨ov, tr, ?_, h3 0 (by omega), ?_⟩
  · simp only [roll3, ht]
    rw [← h1]
    simp only [if_true, mul_comm _ 2, List.replicate_zero, List.append_nil]
  · rw [h4, List.range_succ (n := n), List.flatMap_append]; simp

theorem roll3_amer {isCall : Bool} {S K u d pu pm pd Df : R} {n : ℕ} {V : ℕ → ℕ → R}
    (hV : IsAmerican3 isCall S K u d pu pm pd Df n V) :
    RollSpec3 V n (roll3 S K u d pu pd pm Df (zOf isCall) n "american") := by
  have ht : terminal3 S K u d (zOf isCall) n = (List.range (2 * n + 1)).map (V n) := by
    rw [terminal3_eq]
    refine List.map_congr_left fun k hk => (hV.terminal k ?_).symm
    have := List.mem_range.1 hk; omega
  obtain ⟨ov, tr, h1, h2, h3, h4⟩ := rollback (R := R)
    (fun j i l => amer3 i j l Df pu pd pm K d S u (zOf isCall))
    (fun j => 2 * j + 1) (fun _ => 0) V (2 * n + 1) n ((List.range (2 * n + 1)).map (V n))
    ((List.range (2 * n + 1)).map (V n)) (by simp) (by intros; omega)
    (fun k hk => by simp [hk])
    (by
      intro q hq i hi l hl hk
      unfold amer3
      rw [getI_ok (hk (i + 2) (by omega) (by omega)), getI_ok (hk (i + 1) (by omega) (by omega)),
        getI_ok (hk i (by omega) (by omega))]
      simp only [bind, Except.bind, pure, Except.pure]
      rw [hV.back q hq i (by omega), z_intrinsic, node3]; congr 2; ring)
  refine ⟨ov, tr, ?_, h3 0 (by omega), ?_⟩
  · simp only [roll3, ht]
    rw [← h1]
    simp only [if_true, if_false, mul_comm _ 2, List.replicate_zero, List.append_nil,
      show ("american" = "european") = False by decide]
  · rw [h4, List.range_succ (n := n), List.flatMap_append]; simp

theorem RollSpec3.calcPrice {V : ℕ → ℕ → R} {n : ℕ} {S K u d pu pd pm Df z : R} {type : String}
    (h : RollSpec3 V n (roll3 S K u d pu pd pm Df z n type)) :
    Tree.calcPrice3 S K u d pu pd pm Df z n type = .ok (V 0 0) := by
  obtain ⟨ov, tr, h1, h2, -⟩ := h
  simp [Tree.calcPrice3, h1, bind, Except.bind, getI_ok h2]

theorem length_odd_blocks (f : ℕ → List R) (hf : ∀ q, (f q).length = 2 * q + 1) (m : ℕ) :
    ((List.range m).flatMap f).length = m ^ 2 := by
  induction m with
  | zero => simp
  | succ m ih => rw [List.range_succ, List.flatMap_append, List.length_append, ih]; simp [hf]; ring

theorem getElem?_odd_blocks (f : ℕ → List R) (hf : ∀ q, (f q).length = 2 * q + 1) {m i a : ℕ}
    (hi : i < m) (ha : a < 2 * i + 1) : ((List.range m).flatMap f)[i ^ 2 + a]? = (f i)[a]? := by
  induction m with
  | zero => omega
  | succ m ih =>
    have hl := length_odd_blocks f hf m
    rw [List.range_succ, List.flatMap_append]
    rcases Nat.lt_succ_iff_lt_or_eq.1 hi with h | h
    · rw [List.getElem?_append_left, ih h]
      rw [hl]
      have : (i + 1) ^ 2 ≤ m ^ 2 := Nat.pow_le_pow_left h 2
      have e : (i + 1) ^ 2 = i ^ 2 + 2 * i + 1 := by ring
      omega
    · subst h
      rw [List.getElem?_append_right (by rw [hl]; omega), hl]
      simp

theorem RollSpec3.calcTree {V : ℕ → ℕ → R} {n : ℕ} {S K u d pu pd pm Df z : R} {type : String}
    (h : RollSpec3 V n (roll3 S K u d pu pd pm Df z n type)) :
    ∃ M : Mat R, Tree.calcTree3 S K u d pu pd pm Df z n type = .ok M ∧ M.rows = 2 * n + 1 ∧
      M.cols = n + 1 ∧ ∀ a ≤ 2 * n, ∀ i ≤ n, M.entry a i
        = if n - i ≤ a ∧ a ≤ n + i then V i (n + i - a) else 0 := by
  obtain ⟨ov, tr, h1, -, h3⟩ := h
  have hf : ∀ q, (((List.range (2 * q + 1)).map (V q)).reverse).length = 2 * q + 1 := by simp
  have hlen : tr.length = (n + 1) ^ 2 := by
    rw [← List.length_reverse, h3, length_odd_blocks _ hf]
  refine ⟨⟨2 * (n + 1) - 1, n + 1, fun a i =>
      if n + 1 - i - 1 ≤ a ∧ a < n + 1 + i then tr.reverse.getD (i ^ 2 + (a - (n + 1 - i - 1))) 0 else 0⟩,
      ?_, by simp only; omega, rfl, ?_⟩
  · simp only [Tree.calcTree3, h1, bind, Except.bind, reshape3]
    rw [if_pos]
    intro i hi
    rw [hlen]
    have : (i + 1) ^ 2 ≤ (n + 1) ^ 2 := Nat.pow_le_pow_left hi 2
    have e : (i + 1) ^ 2 = i ^ 2 + 2 * i + 1 := by ring
    omega
  · intro a ha i hi
    simp only [List.getD_eq_getElem?_getD]
    by_cases hc : n - i ≤ a ∧ a ≤ n + i
    · rw [if_pos hc, if_pos (by omega), h3, getElem?_odd_blocks _ hf (by omega) (by omega),
        List.getElem?_reverse (by simp; omega)]
      simp only [List.length_map, List.length_range, List.getElem?_map]
      rw [List.getElem?_range (by omega)]
      simp only [Option.map_some, Option.getD_some]
      congr 1; omega
    · rw [if_neg hc, if_neg (by omega)]

def tV (g : ℕ → ℕ → R → R → R → R) (f : ℕ → R) (n : ℕ) : ℕ → ℕ → R
  | 0, k => f k
  | m + 1, k => g (n - (m + 1)) k (tV g f n m (k + 2)) (tV g f n m (k + 1)) (tV g f n m k)

theorem exists_european3 (isCall : Bool) (S K u d pu pm pd Df : R) (n : ℕ) :
    ∃ V, IsEuropean3 isCall S K u d pu pm pd Df n V := by
  refine ⟨fun j k => tV (fun _ _ a b c => Df * (pu * a + pm * b + pd * c))
    (fun k => payoff isCall (node3 S u d n k) K) n (n - j) k, ?_, ?_⟩
  · intro k _; simp [tV]
  · intro j hj k _
    obtain ⟨m, hm⟩ : ∃ m, n - j = m + 1 := ⟨n - j - 1, by omega⟩
    have : n - (j + 1) = m := by omega
    simp only [hm, this, tV]

theorem exists_american3 (isCall : Bool) (S K u d pu pm pd Df : R) (n : ℕ) :
    ∃ V, IsAmerican3 isCall S K u d pu pm pd Df n V := by
  refine ⟨fun j k => tV (fun j k a b c => max (intrinsic isCall (node3 S u d j k) K)
    (Df * (pu * a + pm * b + pd * c)))
    (fun k => payoff isCall (node3 S u d n k) K) n (n - j) k, ?_, ?_⟩
  · intro k _; simp [tV]
  · intro j hj k _
    obtain ⟨m, hm⟩ : ∃ m, n - j = m + 1 := ⟨n - j - 1, by omega⟩
    have h1 : n - (j + 1) = m := by omega
    have h2 : n - (m + 1) = j := by omega
    simp only [hm, h1, h2, tV]

end generic
end Verif
