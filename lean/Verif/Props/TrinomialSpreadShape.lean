import Verif.Props.TreeSpread

/-!
# C130: how trinomial spread prices depend on spots and strike

The price is a monotone, positively homogeneous and subadditive function of the triple `(S1, -S2, -K)`, hence jointly convex.
-/
namespace Verif.Props
open Verif Verif.Spec Verif.TreeSpread Real

/-- Movement of the first asset between the root and a terminal node. -/
noncomputable def move1 (p : Par) (n i j : ℕ) : ℝ := getGauss (h1 p (p.t / n)) (v1 p (p.t / n)) n i j

/-- Movement of the second asset. -/
noncomputable def move2 (p : Par) (n i j : ℕ) : ℝ := getGauss (h2 p (p.t / n)) (v2 p (p.t / n)) n i j

theorem move1_pos (p : Par) (n i j : ℕ) : 0 < move1 p n i j := getGauss_pos (exp_pos _) (exp_pos _) _ _ _

theorem move2_pos (p : Par) (n i j : ℕ) : 0 < move2 p n i j := getGauss_pos (exp_pos _) (exp_pos _) _ _ _

theorem spread_call_eq (p : Par) {n : ℕ} (hn : 2 ≤ n) (S1 S2 K : ℝ) :
    call { p with S1 := S1, S2 := S2, K := K } n = .ok (exp (n * p.b - p.r * p.t)
      * latticeMean n (fun i j => max 0 (S1 * move1 p n i j - S2 * move2 p n i j - K))) :=
  (C58_average { p with S1 := S1, S2 := S2, K := K } n hn).1

theorem latticeMean_le {n : ℕ} {f g : ℕ → ℕ → ℝ} (h : ∀ i j, f i j ≤ g i j) : latticeMean n f ≤ latticeMean n g :=
  Finset.sum_le_sum fun i _ => Finset.sum_le_sum fun j _ =>
    mul_le_mul_of_nonneg_left (h i j) (mul_nonneg (tri_nonneg _ _) (tri_nonneg _ _))

theorem latticeMean_plus (n : ℕ) (f g : ℕ → ℕ → ℝ) :
    latticeMean n (fun i j => f i j + g i j) = latticeMean n f + latticeMean n g := by
  simp only [latticeMean, mul_add, Finset.sum_add_distrib]

theorem latticeMean_smul (n : ℕ) (c : ℝ) (f : ℕ → ℕ → ℝ) :
    latticeMean n (fun i j => c * f i j) = c * latticeMean n f := by
  simp only [latticeMean, Finset.mul_sum]
  exact Finset.sum_congr rfl fun i _ => Finset.sum_congr rfl fun j _ => by ring

theorem latticeMean_const (n : ℕ) (c : ℝ) : latticeMean n (fun _ _ => c) = c := by
  simp only [latticeMean, ← Finset.sum_mul, ← Finset.mul_sum, sum_tri, mul_one, one_mul]

/-- A dearer first asset, a cheaper second asset and a lower strike do not lower the price. -/
theorem C130_monotone (p : Par) {n : ℕ} {S1 S1' S2 S2' K K' x y : ℝ} (h1 : S1 ≤ S1') (h2 : S2' ≤ S2) (hK : K' ≤ K)
    (hx : call { p with S1 := S1, S2 := S2, K := K } n = .ok x)
    (hy : call { p with S1 := S1', S2 := S2', K := K' } n = .ok y) (hn : 2 ≤ n) : x ≤ y := by
  rw [spread_call_eq p hn] at hx hy
  rw [← Except.ok.inj hx, ← Except.ok.inj hy]
  refine mul_le_mul_of_nonneg_left (latticeMean_le fun i j => max_le_max le_rfl ?_) (exp_pos _).le
  have := mul_le_mul_of_nonneg_right h1 (move1_pos p n i j).le
  have := mul_le_mul_of_nonneg_right h2 (move2_pos p n i j).le
  linarith

/-- Lowering the strike by an amount raises the price by at most that amount times the total discount factor of the code. -/
theorem C130_strike (p : Par) {n : ℕ} {K K' x y : ℝ} (hK : K' ≤ K) (hx : call { p with K := K } n = .ok x)
    (hy : call { p with K := K' } n = .ok y) (hn : 2 ≤ n) :
    x ≤ y ∧ y ≤ x + exp (n * p.b - p.r * p.t) * (K - K') := by
  refine ⟨C130_monotone p le_rfl le_rfl hK (S1 := p.S1) (S2 := p.S2) hx hy hn, ?_⟩
  have ex := spread_call_eq p hn p.S1 p.S2 K
  have ey := spread_call_eq p hn p.S1 p.S2 K'
  rw [hx] at ex
  rw [hy] at ey
  rw [Except.ok.inj ex, Except.ok.inj ey, ← mul_add]
  refine mul_le_mul_of_nonneg_left ?_ (exp_pos _).le
  rw [← latticeMean_const n (K - K'), ← latticeMean_plus]
  refine latticeMean_le fun i j => max_le ?_ ?_
  · linarith [le_max_left 0 (p.S1 * move1 p n i j - p.S2 * move2 p n i j - K)]
  · linarith [le_max_right 0 (p.S1 * move1 p n i j - p.S2 * move2 p n i j - K)]

/-- Prices are in the unit of the spots and the strike. -/
theorem C130_scale (p : Par) {n : ℕ} {c S1 S2 K x : ℝ} (hc : 0 ≤ c) (hx : call { p with S1 := S1, S2 := S2, K := K } n = .ok x)
    (hn : 2 ≤ n) : call { p with S1 := c * S1, S2 := c * S2, K := c * K } n = .ok (c * x) := by
  rw [spread_call_eq p hn] at hx ⊢
  rw [← Except.ok.inj hx]
  congr 1
  rw [mul_left_comm c, ← latticeMean_smul n c]
  congr 2
  funext i j
  rw [mul_max_of_nonneg _ _ hc, mul_zero]
  congr 1
  ring

/-- A position in the sum of two spreads costs at most the two positions. -/
theorem C130_subadditive (p : Par) {n : ℕ} {S1 S1' S2 S2' K K' x y z : ℝ}
    (hx : call { p with S1 := S1, S2 := S2, K := K } n = .ok x)
    (hy : call { p with S1 := S1', S2 := S2', K := K' } n = .ok y)
    (hz : call { p with S1 := S1 + S1', S2 := S2 + S2', K := K + K' } n = .ok z) (hn : 2 ≤ n) : z ≤ x + y := by
  rw [spread_call_eq p hn] at hx hy hz
  rw [← Except.ok.inj hx, ← Except.ok.inj hy, ← Except.ok.inj hz, ← mul_add, ← latticeMean_plus]
  refine mul_le_mul_of_nonneg_left (latticeMean_le fun i j => ?_) (exp_pos _).le
  have a1 := le_max_left 0 (S1 * move1 p n i j - S2 * move2 p n i j - K)
  have a2 := le_max_right 0 (S1 * move1 p n i j - S2 * move2 p n i j - K)
  have b1 := le_max_left 0 (S1' * move1 p n i j - S2' * move2 p n i j - K')
  have b2 := le_max_right 0 (S1' * move1 p n i j - S2' * move2 p n i j - K')
  exact max_le (by linarith) (by linarith)

/-- The price is jointly convex in the two spots and the strike. -/
theorem C130_convex (p : Par) {n : ℕ} {a b S1 S1' S2 S2' K K' x y z : ℝ} (ha : 0 ≤ a) (hb : 0 ≤ b)
    (hx : call { p with S1 := S1, S2 := S2, K := K } n = .ok x)
    (hy : call { p with S1 := S1', S2 := S2', K := K' } n = .ok y)
    (hz : call { p with S1 := a * S1 + b * S1', S2 := a * S2 + b * S2', K := a * K + b * K' } n = .ok z) (hn : 2 ≤ n) :
    z ≤ a * x + b * y :=
  C130_subadditive p (C130_scale p ha hx hn) (C130_scale p hb hy hn) hz hn

/-- All hypotheses hold for the demonstration of the file and a second spread. -/
example : ∃ x y z, call { spreadDemo with S1 := 70, S2 := 60, K := 0 } 100 = .ok x ∧
    call { spreadDemo with S1 := 80, S2 := 65, K := 5 } 100 = .ok y ∧
    call { spreadDemo with S1 := 75, S2 := 62.5, K := 2.5 } 100 = .ok z ∧ z ≤ (1 / 2) * x + (1 / 2) * y := by
  obtain ⟨x, hx, -⟩ := C58_nonneg { spreadDemo with S1 := 70, S2 := 60, K := 0 } 100 (by norm_num)
  obtain ⟨y, hy, -⟩ := C58_nonneg { spreadDemo with S1 := 80, S2 := 65, K := 5 } 100 (by norm_num)
  obtain ⟨z, hz, -⟩ := C58_nonneg { spreadDemo with S1 := 75, S2 := 62.5, K := 2.5 } 100 (by norm_num)
  refine ⟨x, y, z, hx, hy, hz, C130_convex spreadDemo (by norm_num) (by norm_num) hx hy ?_ (by norm_num)⟩
  rw [← hz]
  norm_num

end Verif.Props
