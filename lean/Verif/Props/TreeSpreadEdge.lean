import Verif.Model.TreeSpreadFl
import Verif.Lemmas.Fl
import Verif.Props.TreeSpread

/-!
# The trinomial spread lattice outside its usual range (C107)
-/
namespace Verif.Props
open Verif.Spec Real Filter Topology
open Fl (num)
open TreeSpread (Par)

namespace SpreadFl
open TreeSpreadFl

/-! ### Finite entries -/

/-- A matrix of numbers. -/
def lift (m : TreeSpread.Mat) : Mat := ⟨m.size, fun a b => num (m.val a b)⟩

theorem lift_set (m : TreeSpread.Mat) (i j : ℕ) (x : ℝ) : (lift m).set i j (num x) = lift (m.set i j x) := by
  simp only [lift, Mat.set, TreeSpread.Mat.set]
  congr 1
  funext a b
  split_ifs <;> rfl

theorem sum_num (l : List ℝ) : sum (l.map num) = num l.sum := by
  induction l with
  | nil => exact Fl.zero_eq
  | cons x l ih =>
    rw [List.map_cons, List.sum_cons]
    show num x + sum (l.map num) = _
    rw [ih, Fl.num_add]

theorem window_lift (m : TreeSpread.Mat) (i j : ℕ) : window (lift m) i j = num (TreeSpread.window m i j) := by
  unfold window TreeSpread.window
  rw [← sum_num, List.map_map]
  congr 1
  refine List.map_congr_left fun a _ => ?_
  rw [Function.comp, ← sum_num, List.map_map]
  rfl

theorem calcNodes_lift (m m' : TreeSpread.Mat) (d : ℝ) :
    calcNodes (lift m) (lift m') (num d) = lift (TreeSpread.calcNodes m m' d) := by
  unfold calcNodes TreeSpread.calcNodes
  refine (List.foldl_hom lift fun x i => ?_)
  refine (List.foldl_hom lift fun y j => ?_)
  rw [window_lift, Fl.num_mul, lift_set]

theorem pad_lift (m : TreeSpread.Mat) (j : ℕ) : pad (lift m) j = lift (TreeSpread.pad m j) := by
  simp only [pad, TreeSpread.pad, lift]
  congr 1
  funext a b
  by_cases h : j ≤ a ∧ a < j + m.size ∧ j ≤ b ∧ b < j + m.size
  · rw [if_pos h]; exact if_pos h
  · rw [if_neg h]; exact if_neg h

theorem euro_lift (V : TreeSpread.Mat) (n : ℕ) (d : ℝ) : euro (lift V) n (num d) = (TreeSpread.euro V n d).map lift := by
  have h : ∀ (l : List ℕ) (s : TreeSpread.Mat × List TreeSpread.Mat),
      l.foldl (euroBody n (num d)) (lift s.1, s.2.map lift)
        = (lift (l.foldl (TreeSpread.euroBody n d) s).1, (l.foldl (TreeSpread.euroBody n d) s).2.map lift) := by
    intro l
    induction l with
    | nil => intro s; rfl
    | cons j l ih =>
      intro s
      rw [List.foldl_cons, List.foldl_cons, ← ih]
      congr 1
      have e : calcNodes (lift s.1) ⟨2 * (n - j) + 1, fun _ _ => num 0⟩ (num d)
          = lift (TreeSpread.calcNodes s.1 ⟨2 * (n - j) + 1, fun _ _ => 0⟩ d) := calcNodes_lift _ ⟨_, _⟩ _
      simp only [euroBody, TreeSpread.euroBody, e, pad_lift, List.map_append, List.map_cons, List.map_nil]
  have := h (List.range' 1 (n - 1)) (V, [])
  simp only [List.map_nil] at this
  rw [euro, this, TreeSpread.euro]

/-- The rollback of an arbitrary terminal matrix. -/
theorem euro_price (V : TreeSpread.Mat) (n : ℕ) (d : ℝ) (hn : 2 ≤ n) (hV : V.size = 2 * n + 1) :
    ∃ m, (TreeSpread.euro V n d).getLast? = some m ∧
      TreeSpread.window m (n - 1) (n - 1) * d = d ^ n * latticeMean n V.val := by
  obtain ⟨old, tr, h1, h2, h3, h4⟩ := TreeSpread.euro_loop V n d hV (n - 1) (by omega)
  refine ⟨TreeSpread.pad old (n - 1), by rw [TreeSpread.euro, h1]; exact h4 (by omega), ?_⟩
  have hw : TreeSpread.window (TreeSpread.pad old (n - 1)) (n - 1) (n - 1) = TreeSpread.window old 0 0 := by
    apply TreeSpread.window_congr
    intro a ha b hb
    simp only [TreeSpread.pad]
    rw [if_pos (by omega)]
    congr 1 <;> omega
  rw [hw, TreeSpread.window_congr (m' := ⟨0, fun i j => d ^ (n - 1) * TreeSpread.mean2 (n - 1) V.val i j⟩) (i' := 0) (j' := 0)
      (fun a ha b hb => h3 _ (by omega) _ (by omega)), TreeSpread.window_eq]
  have : ∀ (c : ℝ) (F : ℕ → ℕ → ℝ), TreeSpread.avg (fun a => TreeSpread.avg (fun b => c * F a b) 0) 0
      = c * TreeSpread.avg (fun a => TreeSpread.avg (F a) 0) 0 := by
    intro c F; simp only [TreeSpread.avg]; ring
  rw [this, TreeSpread.mean2_succ, show n - 1 + 1 = n by omega, TreeSpread.latticeMean_eq, TreeSpread.mean2]
  simp only [zero_add]
  conv_rhs => rw [show n = n - 1 + 1 by omega, pow_succ]
  simp only [show n - 1 + 1 = n by omega]
  ring

/-- With factors that are numbers the price is the discounted mean over the nodes. -/
theorem call_num (p : Par) (n : ℕ) (hn : 2 ≤ n) (f g : ℕ → ℕ → ℝ) (hf : ∀ i j, S1T p n i j = num (f i j))
    (hg : ∀ i j, S2T p n i j = num (g i j)) :
    call p n = .ok (num (exp (n * p.b - p.r * p.t) * latticeMean n (fun i j => max 0 (f i j - g i j - p.K)))) := by
  obtain ⟨m, h1, h2⟩ := euro_price ⟨2 * n + 1, fun i j => max 0 (f i j - g i j - p.K)⟩ n (exp (p.b - p.r * (p.t / n))) hn rfl
  have hV : (⟨2 * n + 1, fun i j => Fl.maximum0 (((S1T p n i j - S2T p n i j) - num p.K) * num 1)⟩ : Mat)
      = lift ⟨2 * n + 1, fun i j => max 0 (f i j - g i j - p.K)⟩ := by
    simp only [lift]
    congr 1
    funext i j
    rw [hf, hg, Fl.num_sub, Fl.num_sub, Fl.num_mul, mul_one]
    rfl
  have hd : Df p (p.t / n) = num (exp (p.b - p.r * (p.t / n))) := rfl
  unfold call
  rw [if_neg (by omega)]
  simp only [hV, hd, euro_lift, List.getLast?_map, h1, Option.map_some, window_lift, Fl.num_mul, h2]
  rw [← exp_nat_mul, show (n : ℝ) * (p.b - p.r * (p.t / n)) = n * p.b - p.r * p.t by
    have : (n : ℝ) ≠ 0 := by have : 0 < n := by omega
                             positivity
    field_simp]
  rfl

/-- The same with the errors for too few steps: the price is the one of the model on real numbers. -/
theorem call_lift (p : Par) (n : ℕ) (hf : ∀ i j, S1T p n i j = num (TreeSpread.S1T p n i j))
    (hg : ∀ i j, S2T p n i j = num (TreeSpread.S2T p n i j)) : call p n = (TreeSpread.call p n).map num := by
  rcases Nat.lt_or_ge n 2 with h | h
  · obtain rfl | rfl : n = 0 ∨ n = 1 := by omega
    · rfl
    · rfl
  · rw [call_num p n h _ _ hf hg, (C58_average p n h).1]
    rfl

/-! ### `nan` -/

theorem inner_fold (g : ℕ → ℕ → Fl) (i : ℕ) (l : List ℕ) (m : Mat) (a b : ℕ) :
    (l.foldl (fun m j => m.set i (j - 1) (g i (j - 1))) m).val a b
      = if a = i ∧ b ∈ l.map (· - 1) then g a b else m.val a b := by
  induction l generalizing m with
  | nil => simp
  | cons j l ih =>
    rw [List.foldl_cons, ih]
    simp only [Mat.set, List.map_cons, List.mem_cons]
    by_cases h1 : a = i <;> by_cases h2 : b ∈ l.map (· - 1) <;> by_cases h3 : b = j - 1 <;> simp [h1, h2, h3]

theorem inner_size (g : ℕ → ℕ → Fl) (i : ℕ) (l : List ℕ) (m : Mat) :
    (l.foldl (fun m j => m.set i (j - 1) (g i (j - 1))) m).size = m.size := by
  induction l generalizing m with
  | nil => rfl
  | cons j l ih => rw [List.foldl_cons, ih]; rfl

theorem outer_fold (g : ℕ → ℕ → Fl) (l l' : List ℕ) (m : Mat) (a b : ℕ) :
    (l'.foldl (fun m i => l.foldl (fun m j => m.set (i - 1) (j - 1) (g (i - 1) (j - 1))) m) m).val a b
      = if a ∈ l'.map (· - 1) ∧ b ∈ l.map (· - 1) then g a b else m.val a b := by
  induction l' generalizing m with
  | nil => simp
  | cons i l' ih =>
    rw [List.foldl_cons, ih, inner_fold]
    simp only [List.map_cons, List.mem_cons]
    by_cases h1 : a ∈ l'.map (· - 1) <;> by_cases h2 : b ∈ l.map (· - 1) <;> by_cases h3 : a = i - 1 <;> simp [h1, h2, h3]

theorem outer_size (g : ℕ → ℕ → Fl) (l l' : List ℕ) (m : Mat) :
    (l'.foldl (fun m i => l.foldl (fun m j => m.set (i - 1) (j - 1) (g (i - 1) (j - 1))) m) m).size = m.size := by
  induction l' generalizing m with
  | nil => rfl
  | cons i l' ih => rw [List.foldl_cons, ih, inner_size]

theorem window_nan {m : Mat} {i j : ℕ} (h : m.val i j = .nan) : window m i j = .nan := by
  simp only [window, List.range_succ, List.range_zero, List.nil_append, List.map_cons, List.map_nil,
    List.cons_append, sum, List.foldr_cons, List.foldr_nil, Nat.add_zero, h, Fl.nan_mul, Fl.nan_add]

theorem euro_nan {n : ℕ} (V : Mat) (hV : V.size = 2 * n + 1) (hnan : ∀ i j, V.val i j = .nan) (d : Fl) (k : ℕ) (hk : k < n) :
    ∃ old tr, (List.range' 1 k).foldl (euroBody n d) (V, []) = (old, tr) ∧ old.size = 2 * (n - k) + 1 ∧
      (∀ i ≤ 2 * (n - k), ∀ j ≤ 2 * (n - k), old.val i j = .nan) ∧ (0 < k → tr.getLast? = some (pad old k)) := by
  induction k with
  | zero => exact ⟨V, [], rfl, by rw [hV]; simp, fun i _ j _ => hnan i j, by simp⟩
  | succ k ih =>
    obtain ⟨old, tr, h1, h2, h3, -⟩ := ih (by omega)
    rw [List.range'_1_concat, List.foldl_append, h1]
    refine ⟨calcNodes old ⟨2 * (n - (k + 1)) + 1, fun _ _ => num 0⟩ d,
      tr ++ [pad (calcNodes old ⟨2 * (n - (k + 1)) + 1, fun _ _ => num 0⟩ d) (k + 1)], ?_, ?_, ?_, ?_⟩
    · simp only [List.foldl_cons, List.foldl_nil, euroBody, Nat.add_comm 1 k]
    · rw [calcNodes, outer_size (fun i j => window old i j * d)]
    · intro i hi j hj
      rw [calcNodes, outer_fold (fun i j => window old i j * d),
        if_pos ⟨(TreeSpread.mem_pred _ _).2 (by omega), (TreeSpread.mem_pred _ _).2 (by omega)⟩,
        window_nan (h3 i (by omega) j (by omega)), Fl.nan_mul]
    · intro _
      simp

/-- If the first asset is `nan` at every node, so is the price. -/
theorem call_nan (p : Par) (n : ℕ) (hn : 2 ≤ n) (hf : ∀ i j, S1T p n i j = .nan ∨ S2T p n i j = .nan) :
    call p n = .ok .nan := by
  have hV : ∀ i j, Fl.maximum0 (((S1T p n i j - S2T p n i j) - num p.K) * num 1) = .nan := by
    intro i j
    rcases hf i j with h | h
    · rw [h, Fl.nan_sub, Fl.nan_sub, Fl.nan_mul]; rfl
    · rw [h, Fl.sub_nan, Fl.nan_sub, Fl.nan_mul]; rfl
  obtain ⟨old, tr, h1, h2, h3, h4⟩ := euro_nan
    ⟨2 * n + 1, fun i j => Fl.maximum0 (((S1T p n i j - S2T p n i j) - num p.K) * num 1)⟩ rfl hV (Df p (p.t / n)) (n - 1)
    (by omega)
  have hl : (euro ⟨2 * n + 1, fun i j => Fl.maximum0 (((S1T p n i j - S2T p n i j) - num p.K) * num 1)⟩ n
      (Df p (p.t / n))).getLast? = some (pad old (n - 1)) := by
    rw [euro, h1]; exact h4 (by omega)
  unfold call
  rw [if_neg (by omega)]
  simp only [hl]
  rw [window_nan, Fl.nan_mul]
  · rfl
  · simp only [pad]
    rw [if_pos (by omega)]
    exact h3 _ (by omega) _ (by omega)

theorem pow_nan {k : ℕ} (h : 0 < k) : (Fl.nan ^ k : Fl) = .nan := by
  obtain ⟨k, rfl⟩ := Nat.exists_eq_succ_of_ne_zero h.ne'
  exact Fl.nan_pow k

theorem getGauss_nan {h v : Fl} {n : ℕ} (hn : 0 < n) (i j : ℕ) (hv : h = .nan ∨ v = .nan) : getGauss h v n i j = .nan := by
  unfold getGauss
  rcases hv with rfl | rfl
  · rw [Fl.div_nan]
    rcases Nat.eq_zero_or_pos j with rfl | hj
    · rw [pow_nan (by omega : 0 < 2 * n - 0), Fl.mul_nan, Fl.mul_nan]
    · rw [pow_nan hj, Fl.nan_mul, Fl.mul_nan]
  · rw [Fl.div_nan]
    rcases Nat.eq_zero_or_pos i with rfl | hi
    · rw [pow_nan (by omega : 0 < 2 * n - 0), Fl.nan_mul, Fl.nan_mul]
    · rw [pow_nan hi, Fl.mul_nan, Fl.nan_mul]

theorem getGauss_num {h v : ℝ} (hh : 0 < h) (hv : 0 < v) (n i j : ℕ) :
    getGauss (num h) (num v) n i j = num (TreeSpread.getGauss h v n i j) := by
  simp only [getGauss, TreeSpread.getGauss, Fl.num_div _ hh.ne', Fl.num_div _ hv.ne', Fl.num_pow, Fl.num_mul]

/-! ### The factors -/

theorem root_num (p : Par) : root p = num √((p.sigma1 * p.sigma1 + p.sigma2 * p.sigma2) * (p.sigma1 * p.sigma1 + p.sigma2 * p.sigma2)
      - 4 * (1 - p.rho * p.rho) * p.sigma1 * p.sigma1 * p.sigma2 * p.sigma2) := Fl.num_sqrt (TreeSpread.disc_nonneg p)

theorem lam1_num (p : Par) : lam1 p = num (TreeSpread.lam1 p) := by
  simp only [lam1, root_num, Fl.num_add, Fl.num_mul, TreeSpread.lam1]

theorem lam2_num (p : Par) : lam2 p = num (TreeSpread.lam2 p) := by
  simp only [lam2, root_num, Fl.num_sub, Fl.num_mul, TreeSpread.lam2]

theorem the_num (p : Par) (hq : p.rho * p.sigma1 * p.sigma2 ≠ 0) : the p = num (TreeSpread.the p) := by
  simp only [the, lam1_num, Fl.num_sub, Fl.num_div _ hq, TreeSpread.the]
  rfl

theorem lam1_uncorrelated (p : Par) (hq : p.rho * p.sigma1 * p.sigma2 = 0) :
    TreeSpread.lam1 p = max (p.sigma1 ^ 2) (p.sigma2 ^ 2) := by
  have e : (p.sigma1 * p.sigma1 + p.sigma2 * p.sigma2) * (p.sigma1 * p.sigma1 + p.sigma2 * p.sigma2)
      - 4 * (1 - p.rho * p.rho) * p.sigma1 * p.sigma1 * p.sigma2 * p.sigma2 = (p.sigma1 ^ 2 - p.sigma2 ^ 2) ^ 2 := by
    linear_combination 4 * (p.rho * p.sigma1 * p.sigma2) * hq
  simp only [TreeSpread.lam1]
  rw [e, sqrt_sq_eq_abs]
  rcases le_total (p.sigma1 ^ 2) (p.sigma2 ^ 2) with h | h
  · rw [max_eq_right h, abs_of_nonpos (by linarith)]; ring
  · rw [max_eq_left h, abs_of_nonneg (by linarith)]; ring

theorem lam2_uncorrelated (p : Par) (hq : p.rho * p.sigma1 * p.sigma2 = 0) :
    TreeSpread.lam2 p = min (p.sigma1 ^ 2) (p.sigma2 ^ 2) := by
  have h1 := TreeSpread.lam_sum p
  have h2 := min_add_max (p.sigma1 ^ 2) (p.sigma2 ^ 2)
  rw [lam1_uncorrelated p hq] at h1
  linarith

theorem the_nan (p : Par) (hq : p.rho * p.sigma1 * p.sigma2 = 0) (h : p.sigma2 ^ 2 ≤ p.sigma1 ^ 2) : the p = .nan := by
  have e : TreeSpread.lam1 p - p.sigma1 * p.sigma1 = 0 := by
    rw [lam1_uncorrelated p hq, max_eq_left h]; ring
  rw [the, lam1_num, Fl.num_sub, e, hq]
  have : (num 0 / num 0 : Fl) = .nan := by
    show num 0 * Fl.inv (num 0) = _
    rw [Fl.inv, if_pos rfl]
    show Fl.signed 0 = _
    simp [Fl.signed]
  rw [this]; rfl

theorem the_inf (p : Par) (hq : p.rho * p.sigma1 * p.sigma2 = 0) (h : p.sigma1 ^ 2 < p.sigma2 ^ 2) : the p = num (π / 2) := by
  have e : 0 < TreeSpread.lam1 p - p.sigma1 * p.sigma1 := by
    rw [lam1_uncorrelated p hq, max_eq_right h.le]; nlinarith
  rw [the, lam1_num, Fl.num_sub, hq]
  have : (num (TreeSpread.lam1 p - p.sigma1 * p.sigma1) / num 0 : Fl) = .pinf := by
    show num _ * Fl.inv (num 0) = _
    rw [Fl.inv, if_pos rfl]
    show Fl.signed _ = _
    rw [Fl.signed, if_pos e]
  rw [this]; rfl

/-- The four factors for an angle and roots that are numbers. -/
theorem factors_num (p : Par) {dt θ : ℝ} (hθ : the p = num θ) (h2 : 0 ≤ TreeSpread.lam2 p) (hdt : 0 ≤ dt) :
    h1 p dt = num (exp (-1 * sin θ * √(TreeSpread.lam2 p) * √(3 * dt) - 0.5 * p.sigma1 * p.sigma1 * dt)) ∧
    v1 p dt = num (exp (cos θ * √(TreeSpread.lam1 p) * √(3 * dt) - 0.5 * p.sigma1 * p.sigma1 * dt)) ∧
    TreeSpreadFl.h2 p dt = num (exp (cos θ * √(TreeSpread.lam2 p) * √(3 * dt) - 0.5 * p.sigma2 * p.sigma2 * dt)) ∧
    v2 p dt = num (exp (sin θ * √(TreeSpread.lam1 p) * √(3 * dt) - 0.5 * p.sigma2 * p.sigma2 * dt)) := by
  have d0 : 0 ≤ 3 * dt := by linarith
  simp only [h1, v1, TreeSpreadFl.h2, v2, hθ, lam1_num, lam2_num, Fl.num_sqrt h2, Fl.num_sqrt (TreeSpread.lam1_nonneg p),
    Fl.num_sqrt d0, Fl.sin, Fl.cos, Fl.num_mul, Fl.num_sub, Fl.num_exp, and_self]

theorem lam2_neg (p : Par) (hρ : 1 < p.rho ^ 2) (hs : p.sigma1 * p.sigma2 ≠ 0) : TreeSpread.lam2 p < 0 := by
  have h := TreeSpread.lam_prod p
  have h1 := TreeSpread.lam1_nonneg p
  have : 0 < (p.sigma1 * p.sigma2) ^ 2 := by positivity
  by_contra hc
  rw [not_lt] at hc
  have := mul_nonneg h1 hc
  nlinarith

end SpreadFl

open SpreadFl

/-- **C107 (range).** With `rho sigma1 sigma2 ≠ 0`, `|rho| ≤ 1` and `t ≥ 0` no `nan` occurs: the price (or error for fewer
than two steps) is the one of the model on real numbers. -/
theorem C107_in_range (p : Par) (n : ℕ) (hq : p.rho * p.sigma1 * p.sigma2 ≠ 0) (hρ : p.rho ^ 2 ≤ 1) (ht : 0 ≤ p.t) :
    TreeSpreadFl.call p n = (TreeSpread.call p n).map num := by
  obtain ⟨f1, f2, f3, f4⟩ := factors_num p (dt := p.t / n) (the_num p hq) (TreeSpread.lam2_nonneg p hρ) (by positivity)
  refine call_lift p n (fun i j => ?_) fun i j => ?_
  · rw [TreeSpreadFl.S1T, f1, f2, getGauss_num (exp_pos _) (exp_pos _), Fl.num_mul]; rfl
  · rw [TreeSpreadFl.S2T, f3, f4, getGauss_num (exp_pos _) (exp_pos _), Fl.num_mul]; rfl

/-- **C107, refuted for uncorrelated assets.** If `rho = 0` (or a volatility is zero) and the first asset is at least as
volatile as the second, the angle is `arctan (0 / 0)` and the price is `nan`. -/
theorem C107_uncorrelated_fails (p : Par) (n : ℕ) (hn : 2 ≤ n) (hq : p.rho * p.sigma1 * p.sigma2 = 0)
    (h : p.sigma2 ^ 2 ≤ p.sigma1 ^ 2) : TreeSpreadFl.call p n = .ok .nan := by
  refine call_nan p n hn fun i j => .inl ?_
  have : TreeSpreadFl.v1 p (p.t / n) = .nan := by
    rw [TreeSpreadFl.v1, the_nan p hq h]
    show Fl.exp (Fl.nan * _ * _ - _) = _
    rw [Fl.nan_mul, Fl.nan_mul, Fl.nan_sub]; rfl
  rw [TreeSpreadFl.S1T, getGauss_nan (by omega) i j (.inr this), Fl.mul_nan]

/-- **C107 (uncorrelated, second asset more volatile).** The quotient is infinite, the angle a right angle, and the
price is the discounted mean over a lattice on which the first asset moves with the column only and the second with the
row only, apart from the drift. -/
theorem C107_uncorrelated_partial (p : Par) (n : ℕ) (hn : 2 ≤ n) (ht : 0 ≤ p.t) (hq : p.rho * p.sigma1 * p.sigma2 = 0)
    (h : p.sigma1 ^ 2 < p.sigma2 ^ 2) :
    TreeSpreadFl.call p n = .ok (num (exp (n * p.b - p.r * p.t) * latticeMean n (fun i j =>
      max 0 (p.S1 * exp (-2 * |p.sigma1| * √(3 * (p.t / n)) * ((j : ℝ) - n) - p.sigma1 ^ 2 * (p.t / n) * ((j : ℝ) - i))
        - p.S2 * exp (-2 * |p.sigma2| * √(3 * (p.t / n)) * ((i : ℝ) - n) - p.sigma2 ^ 2 * (p.t / n) * ((j : ℝ) - i))
        - p.K)))) := by
  have l1 : TreeSpread.lam1 p = p.sigma2 ^ 2 := by rw [lam1_uncorrelated p hq, max_eq_right h.le]
  have l2 : TreeSpread.lam2 p = p.sigma1 ^ 2 := by rw [lam2_uncorrelated p hq, min_eq_left h.le]
  obtain ⟨f1, f2, f3, f4⟩ := factors_num p (dt := p.t / n) (the_inf p hq h) (by rw [l2]; positivity) (by positivity)
  rw [sin_pi_div_two, l2, sqrt_sq_eq_abs] at f1
  rw [cos_pi_div_two] at f2 f3
  rw [sin_pi_div_two, l1, sqrt_sq_eq_abs] at f4
  rw [call_num p n hn _ _ (fun i j => by
      rw [TreeSpreadFl.S1T, f1, f2, getGauss_num (exp_pos _) (exp_pos _), Fl.num_mul])
    (fun i j => by rw [TreeSpreadFl.S2T, f3, f4, getGauss_num (exp_pos _) (exp_pos _), Fl.num_mul])]
  congr 3
  refine TreeSpread.latticeMean_congr fun i hi j hj => ?_
  have g : ∀ x y : ℝ, TreeSpread.getGauss (exp x) (exp y) n i j = exp (-2 * y * ((i : ℝ) - n) + 2 * x * ((j : ℝ) - n)) := by
    intro x y
    rw [← exp_log (TreeSpread.getGauss_pos (exp_pos x) (exp_pos y) n i j),
      TreeSpread.log_getGauss (exp_pos _) (exp_pos _) n i j hi hj, log_exp, log_exp]
  rw [g, g]
  congr 4 <;> [skip; skip]
  all_goals ring_nf

/-- **C107, refuted for impossible correlations.** `|rho| > 1` is not refused; the price is `nan`. -/
theorem C107_correlation_fails (p : Par) (n : ℕ) (hn : 2 ≤ n) (hρ : 1 < p.rho ^ 2) (hs : p.sigma1 * p.sigma2 ≠ 0) :
    TreeSpreadFl.call p n = .ok .nan := by
  refine call_nan p n hn fun i j => .inl ?_
  have : TreeSpreadFl.h1 p (p.t / n) = .nan := by
    rw [TreeSpreadFl.h1, lam2_num, Fl.sqrt_neg (lam2_neg p hρ hs), Fl.mul_nan, Fl.nan_mul, Fl.nan_sub]; rfl
  rw [TreeSpreadFl.S1T, getGauss_nan (by omega) i j (.inl this), Fl.mul_nan]

/-- **C107, refuted for expired contracts.** A negative maturity is not refused; the price is `nan`. -/
theorem C107_expired_fails (p : Par) (n : ℕ) (hn : 2 ≤ n) (ht : p.t < 0) : TreeSpreadFl.call p n = .ok .nan := by
  refine call_nan p n hn fun i j => .inl ?_
  have hd : 3 * (p.t / n) < 0 := by
    have : (0 : ℝ) < n := by have : 0 < n := by omega
                             positivity
    have := div_neg_of_neg_of_pos ht this
    linarith
  have : TreeSpreadFl.v1 p (p.t / n) = .nan := by
    rw [TreeSpreadFl.v1, Fl.sqrt_neg hd, Fl.mul_nan, Fl.nan_sub]; rfl
  rw [TreeSpreadFl.S1T, getGauss_nan (by omega) i j (.inr this), Fl.mul_nan]

/-- **C107 (removable).** The `nan` at `rho = 0` is not forced by the contract: for `sigma1 > sigma2 > 0` the coded prices for
`rho ≠ 0` have a finite limit as `rho → 0`. -/
theorem C107_limit (p : Par) (n : ℕ) (hn : 2 ≤ n) (ht : 0 ≤ p.t) (h2 : 0 < p.sigma2) (h12 : p.sigma2 < p.sigma1) :
    TreeSpreadFl.call { p with rho := 0 } n = .ok .nan ∧
    ∃ (price : ℝ → ℝ) (L : ℝ), (∀ ρ, ρ ≠ 0 → ρ ^ 2 ≤ 1 → TreeSpreadFl.call { p with rho := ρ } n = .ok (num (price ρ))) ∧
      Tendsto price (𝓝[≠] 0) (𝓝 L) := by
  refine ⟨C107_uncorrelated_fails _ n hn (by simp) (by simpa using (pow_lt_pow_left₀ h12 h2.le two_ne_zero).le), ?_⟩
  have h1 : 0 < p.sigma1 := h2.trans h12
  have hsq : p.sigma2 ^ 2 < p.sigma1 ^ 2 := pow_lt_pow_left₀ h12 h2.le two_ne_zero
  set P : ℝ → ℝ := fun ρ => exp (n * p.b - p.r * p.t) * latticeMean n (fun i j => max 0
    (TreeSpread.S1T { p with rho := ρ } n i j - TreeSpread.S2T { p with rho := ρ } n i j - p.K)) with hP
  have tl1 : Tendsto (fun ρ : ℝ => TreeSpread.lam1 { p with rho := ρ }) (𝓝[≠] 0) (𝓝 (TreeSpread.lam1 { p with rho := 0 })) := by
    have : Continuous fun ρ : ℝ => TreeSpread.lam1 { p with rho := ρ } := by
      simp only [TreeSpread.lam1]; fun_prop
    exact (this.tendsto 0).mono_left nhdsWithin_le_nhds
  have tl2 : Tendsto (fun ρ : ℝ => TreeSpread.lam2 { p with rho := ρ }) (𝓝[≠] 0) (𝓝 (TreeSpread.lam2 { p with rho := 0 })) := by
    have : Continuous fun ρ : ℝ => TreeSpread.lam2 { p with rho := ρ } := by
      simp only [TreeSpread.lam2]; fun_prop
    exact (this.tendsto 0).mono_left nhdsWithin_le_nhds
  have e1 : TreeSpread.lam1 { p with rho := 0 } = p.sigma1 ^ 2 := by
    rw [lam1_uncorrelated _ (by simp)]; exact max_eq_left hsq.le
  have tθ : Tendsto (fun ρ : ℝ => TreeSpread.the { p with rho := ρ }) (𝓝[≠] 0) (𝓝 0) := by
    have q : Tendsto (fun ρ : ℝ => ρ * p.sigma1 * p.sigma2 / (TreeSpread.lam1 { p with rho := ρ } - p.sigma2 ^ 2))
        (𝓝[≠] 0) (𝓝 0) := by
      have a : Tendsto (fun ρ : ℝ => ρ * p.sigma1 * p.sigma2) (𝓝[≠] 0) (𝓝 0) := by
        have : Continuous fun ρ : ℝ => ρ * p.sigma1 * p.sigma2 := by fun_prop
        simpa using (this.tendsto 0).mono_left (nhdsWithin_le_nhds (s := {0}ᶜ))
      have b := a.div (tl1.sub_const (p.sigma2 ^ 2)) (by rw [e1]; linarith)
      rw [zero_div] at b
      exact b
    have c := (continuous_arctan.tendsto 0).comp q
    rw [arctan_zero] at c
    refine c.congr' ?_
    filter_upwards [self_mem_nhdsWithin] with ρ hρ
    have hq : ρ * p.sigma1 * p.sigma2 ≠ 0 := mul_ne_zero (mul_ne_zero hρ h1.ne') h2.ne'
    have ch := TreeSpread.lam1_char { p with rho := ρ }
    simp only at ch
    have hne : TreeSpread.lam1 { p with rho := ρ } - p.sigma2 ^ 2 ≠ 0 := by
      intro h0
      rw [h0, mul_zero] at ch
      exact pow_ne_zero 2 hq ch.symm
    simp only [Function.comp, TreeSpread.the]
    congr 1
    rw [div_eq_div_iff hne hq]
    linear_combination -ch
  have ex : ∀ {f : ℝ → ℝ} {a : ℝ}, Tendsto f (𝓝[≠] 0) (𝓝 a) → Tendsto (fun x => exp (f x)) (𝓝[≠] 0) (𝓝 (exp a)) :=
    fun h => (continuous_exp.tendsto _).comp h
  have tc := (continuous_cos.tendsto 0).comp tθ
  have ts := (continuous_sin.tendsto 0).comp tθ
  have r1 := (continuous_sqrt.tendsto _).comp tl1
  have r2 := (continuous_sqrt.tendsto _).comp tl2
  set dt := p.t / n
  have k : ∀ c : ℝ, Tendsto (fun _ : ℝ => c) (𝓝[≠] 0) (𝓝 c) := fun c => tendsto_const_nhds
  have H1 := ex ((((ts.const_mul (-1)).mul r2).mul (k √(3 * dt))).sub (k (0.5 * p.sigma1 * p.sigma1 * dt)))
  have V1 := ex (((tc.mul r1).mul (k √(3 * dt))).sub (k (0.5 * p.sigma1 * p.sigma1 * dt)))
  have H2 := ex (((tc.mul r2).mul (k √(3 * dt))).sub (k (0.5 * p.sigma2 * p.sigma2 * dt)))
  have V2 := ex (((ts.mul r1).mul (k √(3 * dt))).sub (k (0.5 * p.sigma2 * p.sigma2 * dt)))
  have G : ∀ {h v : ℝ → ℝ} {a c : ℝ} (i j : ℕ), Tendsto h (𝓝[≠] 0) (𝓝 a) → Tendsto v (𝓝[≠] 0) (𝓝 c) → a ≠ 0 → c ≠ 0 →
      Tendsto (fun x => TreeSpread.getGauss (h x) (v x) n i j) (𝓝[≠] 0) (𝓝 (TreeSpread.getGauss a c n i j)) := by
    intro h v a c i j hh hv ha hc
    unfold TreeSpread.getGauss
    exact ((hv.pow _).mul (((k 1).div hv hc).pow _)).mul ((hh.pow _).mul (((k 1).div hh ha).pow _))
  refine ⟨P, _, fun ρ h0 hρ => ?_, (Tendsto.const_mul _ (tendsto_finsetSum _ fun i _ => tendsto_finsetSum _ fun j _ =>
    Tendsto.const_mul _ ((k 0).max ((((G i j H1 V1 (exp_pos _).ne' (exp_pos _).ne').const_mul p.S1).sub
      ((G i j H2 V2 (exp_pos _).ne' (exp_pos _).ne').const_mul p.S2)).sub_const p.K))))⟩
  have hq : ρ * p.sigma1 * p.sigma2 ≠ 0 := mul_ne_zero (mul_ne_zero h0 h1.ne') h2.ne'
  have := C107_in_range { p with rho := ρ } n hq hρ ht
  rw [(C58_average _ n hn).1] at this
  exact this

/-- Example for C107: the demonstration at the end of the file with correlation zero. -/
theorem C107_example : TreeSpreadFl.call { spreadDemo with rho := 0 } 100 = .ok .nan :=
  C107_uncorrelated_fails _ 100 (by norm_num) (by simp) (by norm_num [spreadDemo])

end Verif.Props
