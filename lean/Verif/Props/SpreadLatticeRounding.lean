import Verif.Spec.SpreadLatticeRounding
import Verif.Props.MCRounding
import Verif.Props.Tree3dRounding
import Verif.Props.KirkRounding
import Verif.Props.TreeSpread
import Mathlib.Analysis.SpecialFunctions.Trigonometric.Bounds
import Mathlib.Analysis.SpecialFunctions.Trigonometric.ArctanDeriv
import Mathlib.Analysis.Calculus.MeanValue

/-! C143: rounding errors of the trinomial spread lattice. -/
namespace Verif.Props
open Spec Real MCRound SpreadLattice
open TreeSpread (Par Mat pad mean1 mean2 avg)

/-- **C143.** In exact arithmetic the functions are those of the class. -/
theorem C143_exact (p : Par) (n : ℕ) : SpreadLatticeFl.call ArithS.exact List.sum p n = TreeSpread.call p n := by
  have hw : ∀ tr i j, SpreadLatticeFl.window ArithS.exact List.sum tr i j = TreeSpread.window tr i j := by
    intro tr i j
    simp only [SpreadLatticeFl.window, TreeSpread.window, SpreadLatticeFl.cells, SpreadLatticeFl.pm, TreeSpread.pm,
      SpreadLatticeFl.weight, ArithS.exact, ArithT.exact, Arith.exact, List.range_succ, List.range_zero]
    simp
    ring
  have hc : SpreadLatticeFl.calcNodes ArithS.exact List.sum = TreeSpread.calcNodes := by
    funext tr ntr d
    simp only [SpreadLatticeFl.calcNodes, TreeSpread.calcNodes, hw]
    rfl
  have he : SpreadLatticeFl.euro ArithS.exact List.sum = TreeSpread.euro := by
    funext V k d
    have : SpreadLatticeFl.euroBody ArithS.exact List.sum k d = TreeSpread.euroBody k d := by
      funext s j
      simp only [SpreadLatticeFl.euroBody, TreeSpread.euroBody, hc]
    simp only [SpreadLatticeFl.euro, TreeSpread.euro, this]
  unfold SpreadLatticeFl.call TreeSpread.call
  simp only [hw, he]
  rfl

/-- The arc tangent turns a relative error into an absolute one. -/
theorem sl_arctan {θ x y : ℝ} (h : Rel θ x y) : |arctan x - arctan y| ≤ θ / 2 := by
  obtain ⟨δ, hδ, rfl⟩ := h
  have hd : ∀ s ∈ (Set.univ : Set ℝ), HasDerivWithinAt (fun s => arctan (y * exp s))
      (1 / (1 + (y * exp s) ^ 2) * (y * exp s)) Set.univ s := fun s _ =>
    (((hasDerivAt_exp s).const_mul y).arctan).hasDerivWithinAt
  have hb : ∀ s ∈ (Set.univ : Set ℝ), ‖1 / (1 + (y * exp s) ^ 2) * (y * exp s)‖ ≤ 1 / 2 := by
    intro s _
    generalize y * exp s = z
    have hz : 0 < 1 + z ^ 2 := by positivity
    rw [norm_eq_abs, abs_mul, abs_of_pos (by positivity : 0 < 1 / (1 + z ^ 2)), one_div_mul_eq_div, div_le_iff₀ hz]
    nlinarith [sq_nonneg (|z| - 1), sq_abs z]
  have := Convex.norm_image_sub_le_of_norm_hasDerivWithin_le hd hb convex_univ (Set.mem_univ 0) (Set.mem_univ δ)
  simp only [exp_zero, mul_one, sub_zero, norm_eq_abs] at this
  linarith

section
variable {e : ℝ} {A : ArithS} (hA : RoundedS e A) (he : 0 ≤ e) (he1 : e < 1)
include hA he he1

theorem sl_sum_level : log (1 + e) ≤ level e := by
  unfold level
  rw [← log_inv]
  refine log_le_log (by linarith) ?_
  rw [le_inv_comm₀ (by linarith) (by linarith), ← one_div, le_div_iff₀ (by linarith)]
  nlinarith

/-- One average. -/
theorem sl_window {sum : List ℝ → ℝ} {d : ℕ} (hs : ∀ l : List ℝ, l.length = 9 → Summed A.toArith d l (sum l)) {θ : ℝ}
    (hθ : 0 ≤ θ) {m' : Mat} {f g : ℕ → ℕ → ℝ} {i j : ℕ}
    (h : ∀ a < 3, ∀ b < 3, Err θ (m'.val (i + a) (j + b)) (f (i + a) (j + b)) (g (i + a) (j + b))) :
    Err (θ + (d + 2) * level e) (SpreadLatticeFl.window A sum m' i j) (avg (fun a => avg (f a) j) i)
      (avg (fun a => avg (g a) j) i) := by
  have hL := kirk_level_nonneg he he1
  have lev : -log (1 - e) = level e := rfl
  have hl : (SpreadLatticeFl.cells.map fun c => A.mul (m'.val (i + c.1) (j + c.2)) (SpreadLatticeFl.pm A c.1 c.2)).length
      = 9 := by simp [SpreadLatticeFl.cells, List.range_succ]
  have hp : ∀ a b : ℕ, Err (level e) (SpreadLatticeFl.pm A a b) (TreeSpread.pm a b) (TreeSpread.pm a b) := by
    intro a b
    have h1 : Rel (level e) (SpreadLatticeFl.pm A a b) (TreeSpread.pm a b) := Rel.of_round he he1 (hA.div _ _)
    have h2 : 0 ≤ TreeSpread.pm a b := by
      unfold TreeSpread.pm; split <;> norm_num
    have := h1.err
    rwa [abs_of_nonneg h2] at this
  have := summed_map hA.toRounded he (hs _ hl) (θ := θ + 2 * level e) (by linarith)
    (g := fun c => f (i + c.1) (j + c.2) * TreeSpread.pm c.1 c.2)
    (h := fun c => g (i + c.1) (j + c.2) * TreeSpread.pm c.1 c.2) (fun c hc => by
      have hc' : c.1 < 3 ∧ c.2 < 3 := by
        simp only [SpreadLatticeFl.cells, List.mem_flatMap, List.mem_map, List.mem_range] at hc
        obtain ⟨a, ha, b, hb, rfl⟩ := hc
        exact ⟨ha, hb⟩
      exact (((h _ hc'.1 _ hc'.2).mul (hp _ _)).round' he he1 (hA.mul _ _)).mono (by linarith))
  have e1 : ∀ F : ℕ → ℕ → ℝ, (SpreadLatticeFl.cells.map fun c => F (i + c.1) (j + c.2) * TreeSpread.pm c.1 c.2).sum
      = avg (fun a => avg (F a) j) i := by
    intro F
    rw [← TreeSpread.window_eq ⟨0, F⟩]
    simp [TreeSpread.window, SpreadLatticeFl.cells, List.range_succ]
    ring
  rw [e1, e1] at this
  refine this.mono ?_
  have := mul_le_mul_of_nonneg_left (sl_sum_level hA he he1) (Nat.cast_nonneg (α := ℝ) d)
  linarith

/-- State of the loop after `k` steps. -/
theorem sl_loop {sum : List ℝ → ℝ} {d : ℕ} (hs : ∀ l : List ℝ, l.length = 9 → Summed A.toArith d l (sum l)) {θ γ D D' : ℝ}
    (hθ : 0 ≤ θ) (hD : Err γ D' D D) (hγ : 0 ≤ γ) {V : Mat} {f g : ℕ → ℕ → ℝ} {n : ℕ} (hV : V.size = 2 * n + 1)
    (h : ∀ i ≤ 2 * n, ∀ j ≤ 2 * n, Err θ (V.val i j) (f i j) (g i j)) (k : ℕ) (hk : k < n) :
    ∃ old : Mat, ∃ tr : List Mat,
      (List.range' 1 k).foldl (SpreadLatticeFl.euroBody A sum n D') (V, []) = (old, tr) ∧ old.size = 2 * (n - k) + 1 ∧
      (∀ i ≤ 2 * (n - k), ∀ j ≤ 2 * (n - k), Err (θ + k * (γ + (d + 3) * level e)) (old.val i j) (D ^ k * mean2 k f i j)
        (D ^ k * mean2 k g i j)) ∧
      (0 < k → tr.getLast? = some (pad old k)) := by
  have hL := kirk_level_nonneg he he1
  have lev : -log (1 - e) = level e := rfl
  induction k with
  | zero =>
    refine ⟨V, [], rfl, by rw [hV]; simp, fun i hi j hj => ?_, by simp⟩
    have := h i (by omega) j (by omega)
    simpa [mean2, TreeSpread.mean1_zero] using this
  | succ k ih =>
    obtain ⟨old, tr, h1, h2, h3, -⟩ := ih (by omega)
    rw [List.range'_1_concat, List.foldl_append, h1]
    refine ⟨SpreadLatticeFl.calcNodes A sum old ⟨2 * (n - (k + 1)) + 1, fun _ _ => 0⟩ D',
      tr ++ [pad (SpreadLatticeFl.calcNodes A sum old ⟨2 * (n - (k + 1)) + 1, fun _ _ => 0⟩ D') (k + 1)], ?_, ?_, ?_, ?_⟩
    · simp only [List.foldl_cons, List.foldl_nil, SpreadLatticeFl.euroBody, Nat.add_comm 1 k]
    · rw [SpreadLatticeFl.calcNodes, TreeSpread.outer_size (fun i j => A.mul (SpreadLatticeFl.window A sum old i j) D')]
    · intro i hi j hj
      rw [SpreadLatticeFl.calcNodes, TreeSpread.outer_fold (fun i j => A.mul (SpreadLatticeFl.window A sum old i j) D'),
        if_pos ⟨(TreeSpread.mem_pred _ _).2 (by omega), (TreeSpread.mem_pred _ _).2 (by omega)⟩]
      have hκ : 0 ≤ (k : ℝ) * (γ + (d + 3) * level e) := by positivity
      have w := sl_window hA he he1 hs (θ := θ + k * (γ + (d + 3) * level e)) (by linarith) (m' := old)
        (f := fun a b => D ^ k * mean2 k f a b) (g := fun a b => D ^ k * mean2 k g a b) (i := i) (j := j)
        (fun a ha b hb => h3 (i + a) (by omega) (j + b) (by omega))
      have w2 := (w.mul hD).round' he he1 (hA.mul _ _)
      have e1 : ∀ F : ℕ → ℕ → ℝ, avg (fun a => avg (fun b => D ^ k * mean2 k F a b) j) i * D
          = D ^ (k + 1) * mean2 (k + 1) F i j := by
        intro F; rw [← TreeSpread.mean2_succ]; simp only [avg]; ring
      have w3 : Err _ _ (avg (fun a => avg (fun b => D ^ k * mean2 k f a b) j) i * D)
        (avg (fun a => avg (fun b => D ^ k * mean2 k g a b) j) i * D) := w2
      rw [e1, e1] at w3
      refine w3.mono ?_
      push_cast
      linarith
    · intro _
      simp

/-- The rollback. -/
theorem sl_rollback {sum : List ℝ → ℝ} {d : ℕ} (hs : ∀ l : List ℝ, l.length = 9 → Summed A.toArith d l (sum l))
    {θ γ D D' : ℝ} (hθ : 0 ≤ θ) (hD : Err γ D' D D) (hγ : 0 ≤ γ) {V : Mat} {f g : ℕ → ℕ → ℝ} {n : ℕ} (hn : 2 ≤ n)
    (hV : V.size = 2 * n + 1) (h : ∀ i ≤ 2 * n, ∀ j ≤ 2 * n, Err θ (V.val i j) (f i j) (g i j)) :
    ∃ m, (SpreadLatticeFl.euro A sum V n D').getLast? = some m ∧
      Err (θ + n * (γ + (d + 3) * level e)) (A.mul (SpreadLatticeFl.window A sum m (n - 1) (n - 1)) D')
        (D ^ n * latticeMean n f) (D ^ n * latticeMean n g) := by
  have hL := kirk_level_nonneg he he1
  have lev : -log (1 - e) = level e := rfl
  obtain ⟨old, tr, h1, h2, h3, h4⟩ := sl_loop hA he he1 hs hθ hD hγ hV h (n - 1) (by omega)
  refine ⟨pad old (n - 1), by rw [SpreadLatticeFl.euro, h1]; exact h4 (by omega), ?_⟩
  have hw : SpreadLatticeFl.window A sum (pad old (n - 1)) (n - 1) (n - 1) = SpreadLatticeFl.window A sum old 0 0 := by
    unfold SpreadLatticeFl.window
    congr 1
    apply List.map_congr_left
    intro c hc
    simp only [SpreadLatticeFl.cells, List.mem_flatMap, List.mem_map, List.mem_range] at hc
    obtain ⟨a, ha, b, hb, rfl⟩ := hc
    simp only [pad]
    rw [if_pos (by omega)]
    congr 2 <;> omega
  rw [hw]
  have hκ : 0 ≤ ((n - 1 : ℕ) : ℝ) * (γ + (d + 3) * level e) := by positivity
  have w := sl_window hA he he1 hs (θ := θ + (n - 1 : ℕ) * (γ + (d + 3) * level e)) (by linarith) (m' := old)
    (f := fun a b => D ^ (n - 1) * mean2 (n - 1) f a b) (g := fun a b => D ^ (n - 1) * mean2 (n - 1) g a b) (i := 0) (j := 0)
    (fun a ha b hb => h3 (0 + a) (by omega) (0 + b) (by omega))
  have w2 := (w.mul hD).round' he he1 (hA.mul _ _)
  have e1 : ∀ F : ℕ → ℕ → ℝ, avg (fun a => avg (fun b => D ^ (n - 1) * mean2 (n - 1) F a b) 0) 0 * D
      = D ^ n * latticeMean n F := by
    intro F
    have : avg (fun a => avg (fun b => D ^ (n - 1) * mean2 (n - 1) F a b) 0) 0
        = D ^ (n - 1) * avg (fun a => avg (mean2 (n - 1) F a) 0) 0 := by simp only [avg]; ring
    rw [this, TreeSpread.mean2_succ, show n - 1 + 1 = n by omega, TreeSpread.latticeMean_eq, mean2]
    simp only [zero_add]
    conv_rhs => rw [show n = n - 1 + 1 by omega, pow_succ]
    simp only [show n - 1 + 1 = n by omega]
    ring
  have w3 : Err _ _ (avg (fun a => avg (fun b => D ^ (n - 1) * mean2 (n - 1) f a b) 0) 0 * D)
    (avg (fun a => avg (fun b => D ^ (n - 1) * mean2 (n - 1) g a b) 0) 0 * D) := w2
  rw [e1, e1] at w3
  refine w3.mono ?_
  have : (n : ℝ) = ((n - 1 : ℕ) : ℝ) + 1 := by
    have : n = (n - 1) + 1 := by omega
    exact_mod_cast this
  rw [this]
  linarith

variable (p : Par)

omit hA he he1 in
theorem sl_eigen : TreeSpread.lam1 p = eigen true p.sigma1 p.sigma2 p.rho ∧
    TreeSpread.lam2 p = eigen false p.sigma1 p.sigma2 p.rho := by
  unfold TreeSpread.lam1 TreeSpread.lam2 eigen
  simp only [if_true, Bool.false_eq_true, if_false]
  rw [show (p.sigma1 * p.sigma1 + p.sigma2 * p.sigma2) * (p.sigma1 * p.sigma1 + p.sigma2 * p.sigma2)
      - 4 * (1 - p.rho * p.rho) * p.sigma1 * p.sigma1 * p.sigma2 * p.sigma2
    = (p.sigma1 ^ 2 - p.sigma2 ^ 2) ^ 2 + 4 * (p.rho * p.sigma1 * p.sigma2) ^ 2 by ring]
  constructor <;> ring

theorem sl_sdp : Rel (2 * level e) (SpreadLatticeFl.sdp A p) (p.sigma1 ^ 2 + p.sigma2 ^ 2) := by
  have lev : -log (1 - e) = level e := rfl
  have a1 := Rel.of_round he he1 (hA.mul p.sigma1 p.sigma1)
  have a2 := Rel.of_round he he1 (hA.mul p.sigma2 p.sigma2)
  have := (a1.add a2 (mul_self_nonneg _) (mul_self_nonneg _)).round he he1 (hA.add _ _)
  rw [← pow_two, ← pow_two] at this
  exact this.mono (by linarith)

/-- The gap between the eigenvalues. -/
theorem sl_root (hg : gapErr e p.sigma1 p.sigma2 p.rho < 1) (hq : p.rho * p.sigma1 * p.sigma2 ≠ 0) :
    Rel (gapLevel e p.sigma1 p.sigma2 p.rho) (A.sqrt (SpreadLatticeFl.disc A p))
      √((p.sigma1 ^ 2 - p.sigma2 ^ 2) ^ 2 + 4 * (p.rho * p.sigma1 * p.sigma2) ^ 2) := by
  have hL := kirk_level_nonneg he he1
  have lev : -log (1 - e) = level e := rfl
  have hR : 0 < (p.sigma1 ^ 2 - p.sigma2 ^ 2) ^ 2 + 4 * (p.rho * p.sigma1 * p.sigma2) ^ 2 := by positivity
  have s1 := sl_sdp hA he he1 p
  have s2 := ((s1.mul s1).round he he1 (hA.mul _ _)).err
  rw [abs_of_nonneg (by positivity : 0 ≤ (p.sigma1 ^ 2 + p.sigma2 ^ 2) * (p.sigma1 ^ 2 + p.sigma2 ^ 2))] at s2
  have r1 := (Rel.of_round he he1 (hA.mul p.rho p.rho)).err
  rw [abs_of_nonneg (mul_self_nonneg _)] at r1
  have one : Err (level e) (1 : ℝ) 1 1 := (Err.rfl' (by norm_num)).mono hL
  have r2 := (one.sub r1).round' he he1 (hA.sub _ _)
  have c4 : Err 0 (4 : ℝ) 4 4 := Err.rfl' (by norm_num)
  have cs1 : Err 0 p.sigma1 p.sigma1 |p.sigma1| := Err.rfl' le_rfl
  have cs2 : Err 0 p.sigma2 p.sigma2 |p.sigma2| := Err.rfl' le_rfl
  have r3 := (c4.mul r2).round' he he1 (hA.mul _ _)
  have r4 := (r3.mul cs1).round' he he1 (hA.mul _ _)
  have r5 := (r4.mul cs1).round' he he1 (hA.mul _ _)
  have r6 := (r5.mul cs2).round' he he1 (hA.mul _ _)
  have r7 := ((r6.mul cs2).round' he he1 (hA.mul _ _)).mono (θ' := 7 * level e) (by linarith)
  have t1 := (((s2.mono (θ' := 7 * level e) (by linarith)).sub r7).round' he he1 (hA.sub _ _)).mono
    (θ' := 8 * level e) (by linarith)
  have e1 : (p.sigma1 ^ 2 + p.sigma2 ^ 2) * (p.sigma1 ^ 2 + p.sigma2 ^ 2)
      - 4 * (1 - p.rho * p.rho) * p.sigma1 * p.sigma1 * p.sigma2 * p.sigma2
      = (p.sigma1 ^ 2 - p.sigma2 ^ 2) ^ 2 + 4 * (p.rho * p.sigma1 * p.sigma2) ^ 2 := by ring
  have e2 : (p.sigma1 ^ 2 + p.sigma2 ^ 2) * (p.sigma1 ^ 2 + p.sigma2 ^ 2)
      + 4 * (1 + p.rho * p.rho) * |p.sigma1| * |p.sigma1| * |p.sigma2| * |p.sigma2|
      = (p.sigma1 ^ 2 + p.sigma2 ^ 2) ^ 2 + 4 * (1 + p.rho ^ 2) * (p.sigma1 * p.sigma2) ^ 2 := by
    have a1 := abs_mul_abs_self p.sigma1
    have a2 := abs_mul_abs_self p.sigma2
    linear_combination 4 * (1 + p.rho ^ 2) * (|p.sigma2| * |p.sigma2|) * a1
      + 4 * (1 + p.rho ^ 2) * (p.sigma1 * p.sigma1) * a2
  rw [e1, e2] at t1
  have h8 := one_le_exp (by linarith : 0 ≤ 8 * level e)
  have hg0 : 0 ≤ gapErr e p.sigma1 p.sigma2 p.rho := by
    unfold gapErr condGap
    exact mul_nonneg (by linarith) (by positivity)
  have t2 : Rel (level (gapErr e p.sigma1 p.sigma2 p.rho)) (SpreadLatticeFl.disc A p)
      ((p.sigma1 ^ 2 - p.sigma2 ^ 2) ^ 2 + 4 * (p.rho * p.sigma1 * p.sigma2) ^ 2) :=
    Rel.of_round hg0 hg (by
      rw [abs_of_pos hR]
      refine t1.err.trans (le_of_eq ?_)
      unfold gapErr condGap
      rw [mul_assoc (exp (8 * level e) - 1), div_mul_cancel₀ _ hR.ne'])
  have t3 := t2.sqrt.round he he1 (z := A.sqrt (SpreadLatticeFl.disc A p))
    (by rw [abs_of_nonneg (sqrt_nonneg _)]; exact hA.sqrt _)
  exact t3.mono (by unfold gapLevel; linarith)

/-- The eigenvalues. -/
theorem sl_lam (hg : gapErr e p.sigma1 p.sigma2 p.rho < 1) (hq : p.rho * p.sigma1 * p.sigma2 ≠ 0) :
    Rel (gapLevel e p.sigma1 p.sigma2 p.rho + 4 * level e) (SpreadLatticeFl.lam1 A p) (eigen true p.sigma1 p.sigma2 p.rho) ∧
    Err (gapLevel e p.sigma1 p.sigma2 p.rho + 4 * level e) (SpreadLatticeFl.lam2 A p) (eigen false p.sigma1 p.sigma2 p.rho)
      (eigen true p.sigma1 p.sigma2 p.rho) := by
  have hL := kirk_level_nonneg he he1
  have lev : -log (1 - e) = level e := rfl
  have r0 := sl_root hA he he1 p hg hq
  have hη := r0.nonneg
  have r := r0.mono (θ' := gapLevel e p.sigma1 p.sigma2 p.rho + 2 * level e) (by linarith)
  have s := (sl_sdp hA he he1 p).mono (θ' := gapLevel e p.sigma1 p.sigma2 p.rho + 2 * level e) (by linarith)
  have hs : 0 ≤ p.sigma1 ^ 2 + p.sigma2 ^ 2 := by positivity
  have a := (s.add r hs (sqrt_nonneg _)).round he he1 (hA.add _ _)
  have b := ((Rel.rfl' (y := (0.5 : ℝ))).mul a).round he he1 (hA.mul _ _)
  have s' := s.err
  have r' := r.err
  rw [abs_of_nonneg hs] at s'
  rw [abs_of_nonneg (sqrt_nonneg _)] at r'
  have c := (s'.sub r').round' he he1 (hA.sub _ _)
  have half : Err 0 (0.5 : ℝ) 0.5 0.5 := Err.rfl' (by rw [abs_of_pos] <;> norm_num)
  have d := (half.mul c).round' he he1 (hA.mul _ _)
  refine ⟨?_, ?_⟩
  · have : (0.5 : ℝ) * (p.sigma1 ^ 2 + p.sigma2 ^ 2 + √((p.sigma1 ^ 2 - p.sigma2 ^ 2) ^ 2
        + 4 * (p.rho * p.sigma1 * p.sigma2) ^ 2)) = eigen true p.sigma1 p.sigma2 p.rho := by
      unfold eigen; simp only [if_true]; ring
    rw [this] at b
    exact b.mono (by linarith)
  · have h1 : (0.5 : ℝ) * (p.sigma1 ^ 2 + p.sigma2 ^ 2 - √((p.sigma1 ^ 2 - p.sigma2 ^ 2) ^ 2
        + 4 * (p.rho * p.sigma1 * p.sigma2) ^ 2)) = eigen false p.sigma1 p.sigma2 p.rho := by
      unfold eigen; simp only [Bool.false_eq_true, if_false]; ring
    have h2 : (0.5 : ℝ) * (p.sigma1 ^ 2 + p.sigma2 ^ 2 + √((p.sigma1 ^ 2 - p.sigma2 ^ 2) ^ 2
        + 4 * (p.rho * p.sigma1 * p.sigma2) ^ 2)) = eigen true p.sigma1 p.sigma2 p.rho := by
      unfold eigen; simp only [if_true]; ring
    rw [h1, h2] at d
    exact d.mono (by linarith)

omit hA he he1 in
/-- The smaller eigenvalue is positive, the larger one above both variances. -/
theorem sl_eigen_pos (hq : p.rho * p.sigma1 * p.sigma2 ≠ 0) (hρ : p.rho ^ 2 < 1) :
    0 < eigen false p.sigma1 p.sigma2 p.rho ∧ p.sigma1 ^ 2 < eigen true p.sigma1 p.sigma2 p.rho := by
  obtain ⟨h1, h2⟩ := sl_eigen p
  have hp := TreeSpread.lam_prod p
  have hs := TreeSpread.lam_sum p
  have n1 := TreeSpread.lam1_nonneg p
  have hc := TreeSpread.lam1_char p
  have hne : p.sigma1 ≠ 0 := fun h => hq (by rw [h]; ring)
  have hne2 : p.sigma2 ≠ 0 := fun h => hq (by rw [h]; ring)
  rw [← h1, ← h2]
  have k1 : 0 < TreeSpread.lam1 p * TreeSpread.lam2 p := by
    rw [hp, show p.sigma1 ^ 2 * p.sigma2 ^ 2 - (p.rho * p.sigma1 * p.sigma2) ^ 2
      = (1 - p.rho ^ 2) * (p.sigma1 ^ 2 * p.sigma2 ^ 2) by ring]
    have := sub_pos.2 hρ
    positivity
  have k2 : 0 < (p.rho * p.sigma1 * p.sigma2) ^ 2 := by positivity
  have l1 : 0 < TreeSpread.lam1 p := lt_of_le_of_ne n1 fun h => by rw [← h, zero_mul] at k1; exact lt_irrefl _ k1
  refine ⟨(pos_iff_pos_of_mul_pos k1).1 l1, ?_⟩
  by_contra hcon
  push Not at hcon
  have l2 := (pos_iff_pos_of_mul_pos k1).1 l1
  have hge : p.sigma2 ^ 2 ≤ TreeSpread.lam1 p → False := fun h => by
    have := mul_nonpos_of_nonpos_of_nonneg (sub_nonpos.2 hcon) (sub_nonneg.2 h)
    linarith
  have hd := sqrt_nonneg ((p.sigma1 ^ 2 - p.sigma2 ^ 2) ^ 2 + 4 * (p.rho * p.sigma1 * p.sigma2) ^ 2)
  have hge2 : (p.sigma1 ^ 2 + p.sigma2 ^ 2) / 2 ≤ TreeSpread.lam1 p := by
    rw [h1]; unfold eigen; simp only [if_true]; linarith
  exact hge (by linarith)

/-- The angle. -/
theorem sl_angle (hg : gapErr e p.sigma1 p.sigma2 p.rho < 1) (ha : angleErr e p.sigma1 p.sigma2 p.rho < 1)
    (hq : p.rho * p.sigma1 * p.sigma2 ≠ 0) (hρ : p.rho ^ 2 < 1) :
    |SpreadLatticeFl.the A p - TreeSpread.the p| ≤ (exp (angleLevel e p.sigma1 p.sigma2 p.rho) - 1) * 2 ∧
    0 ≤ angleLevel e p.sigma1 p.sigma2 p.rho := by
  have hL := kirk_level_nonneg he he1
  have lev : -log (1 - e) = level e := rfl
  obtain ⟨l1, -⟩ := sl_lam hA he he1 p hg hq
  obtain ⟨h1, -⟩ := sl_eigen p
  obtain ⟨-, hlt⟩ := sl_eigen_pos p hq hρ
  have hη := (sl_root hA he he1 p hg hq).nonneg
  have hlam : 0 < eigen true p.sigma1 p.sigma2 p.rho := lt_of_le_of_lt (sq_nonneg _) hlt
  have l1' := l1.err
  rw [abs_of_pos hlam] at l1'
  have s1 := (Rel.of_round he he1 (hA.mul p.sigma1 p.sigma1)).err
  rw [abs_of_nonneg (mul_self_nonneg _)] at s1
  have t := (l1'.sub (s1.mono (θ' := gapLevel e p.sigma1 p.sigma2 p.rho + 4 * level e) (by linarith))).round' he he1
    (hA.sub _ _)
  rw [← pow_two] at t
  have t' := t.mono (θ' := gapLevel e p.sigma1 p.sigma2 p.rho + 5 * level e) (by linarith)
  have hd : 0 < eigen true p.sigma1 p.sigma2 p.rho - p.sigma1 ^ 2 := sub_pos.2 hlt
  have h5 := one_le_exp (by linarith : 0 ≤ gapLevel e p.sigma1 p.sigma2 p.rho + 5 * level e)
  have ha0 : 0 ≤ angleErr e p.sigma1 p.sigma2 p.rho := by
    unfold angleErr condAngle
    exact mul_nonneg (by linarith) (by positivity)
  have u : Rel (level (angleErr e p.sigma1 p.sigma2 p.rho))
      (A.sub (SpreadLatticeFl.lam1 A p) (A.mul p.sigma1 p.sigma1)) (eigen true p.sigma1 p.sigma2 p.rho - p.sigma1 ^ 2) :=
    Rel.of_round ha0 ha (by
      rw [abs_of_pos hd]
      refine t'.err.trans (le_of_eq ?_)
      unfold angleErr condAngle
      rw [mul_assoc (exp _ - 1), div_mul_cancel₀ _ hd.ne'])
  have hu0 := u.nonneg
  have d1 := Rel.of_round he he1 (hA.mul p.rho p.sigma1)
  have d2 := (d1.mul (Rel.rfl' (y := p.sigma2))).round he he1 (hA.mul _ _)
  have q := (u.div d2).round he he1 (hA.div _ _)
  have q2 := sl_arctan (q.mono (θ' := level (angleErr e p.sigma1 p.sigma2 p.rho) + 3 * level e) (by linarith))
  have hthe : TreeSpread.the p = arctan ((eigen true p.sigma1 p.sigma2 p.rho - p.sigma1 ^ 2)
      / (p.rho * p.sigma1 * p.sigma2)) := by
    unfold TreeSpread.the; rw [h1, pow_two]
  have hang : 0 ≤ angleLevel e p.sigma1 p.sigma2 p.rho := by unfold angleLevel; linarith
  refine ⟨?_, hang⟩
  have x1 := add_one_le_exp (angleLevel e p.sigma1 p.sigma2 p.rho)
  have hel : e ≤ level e := by
    have := log_le_sub_one_of_pos (by linarith : 0 < 1 - e)
    linarith
  unfold SpreadLatticeFl.the
  rw [hthe]
  generalize A.div (A.sub (SpreadLatticeFl.lam1 A p) (A.mul p.sigma1 p.sigma1)) (A.mul (A.mul p.rho p.sigma1) p.sigma2)
    = z at *
  have r := hA.atan z
  have hpi := pi_le_four
  have a1 : |arctan z| ≤ 2 := by
    have := arctan_lt_pi_div_two z
    have := neg_pi_div_two_lt_arctan z
    rw [abs_le]; constructor <;> linarith
  have a2 : e * |arctan z| ≤ e * 2 := mul_le_mul_of_nonneg_left a1 he
  have tri := abs_sub_le (A.atan z) (arctan z)
    (arctan ((eigen true p.sigma1 p.sigma2 p.rho - p.sigma1 ^ 2) / (p.rho * p.sigma1 * p.sigma2)))
  unfold angleLevel at *
  linarith

theorem sl_sin (hg : gapErr e p.sigma1 p.sigma2 p.rho < 1) (ha : angleErr e p.sigma1 p.sigma2 p.rho < 1)
    (hq : p.rho * p.sigma1 * p.sigma2 ≠ 0) (hρ : p.rho ^ 2 < 1) :
    Err (angleLevel e p.sigma1 p.sigma2 p.rho + level e) (A.sin (SpreadLatticeFl.the A p)) (sin (TreeSpread.the p)) 2 ∧
    Err (angleLevel e p.sigma1 p.sigma2 p.rho + level e) (A.cos (SpreadLatticeFl.the A p)) (cos (TreeSpread.the p)) 2 := by
  have lev : -log (1 - e) = level e := rfl
  obtain ⟨h, -⟩ := sl_angle hA he he1 p hg ha hq hρ
  have a1 : Err (angleLevel e p.sigma1 p.sigma2 p.rho) (sin (SpreadLatticeFl.the A p)) (sin (TreeSpread.the p)) 2 :=
    ⟨(abs_sin_sub_sin_le _ _).trans h, (abs_sin_le_one _).trans (by norm_num)⟩
  have a2 : Err (angleLevel e p.sigma1 p.sigma2 p.rho) (cos (SpreadLatticeFl.the A p)) (cos (TreeSpread.the p)) 2 :=
    ⟨(abs_cos_sub_cos_le _ _).trans h, (abs_cos_le_one _).trans (by norm_num)⟩
  exact ⟨(a1.round' he he1 (hA.sin _)).mono (by linarith), (a2.round' he he1 (hA.cos _)).mono (by linarith)⟩

/-- The roots of the eigenvalues. -/
theorem sl_roots (hg : gapErr e p.sigma1 p.sigma2 p.rho < 1) (hl : lowErr e p.sigma1 p.sigma2 p.rho < 1)
    (hq : p.rho * p.sigma1 * p.sigma2 ≠ 0) (hρ : p.rho ^ 2 < 1) :
    Err (gapLevel e p.sigma1 p.sigma2 p.rho + 3 * level e) (A.sqrt (SpreadLatticeFl.lam1 A p)) √(TreeSpread.lam1 p)
      √(eigen true p.sigma1 p.sigma2 p.rho) ∧
    Err (lowLevel e p.sigma1 p.sigma2 p.rho) (A.sqrt (SpreadLatticeFl.lam2 A p)) √(TreeSpread.lam2 p)
      √(eigen false p.sigma1 p.sigma2 p.rho) ∧ 0 ≤ gapLevel e p.sigma1 p.sigma2 p.rho ∧
    0 ≤ lowLevel e p.sigma1 p.sigma2 p.rho := by
  have hL := kirk_level_nonneg he he1
  have lev : -log (1 - e) = level e := rfl
  obtain ⟨l1, l2⟩ := sl_lam hA he he1 p hg hq
  obtain ⟨h1, h2⟩ := sl_eigen p
  obtain ⟨hpos, hlt⟩ := sl_eigen_pos p hq hρ
  have hη := (sl_root hA he he1 p hg hq).nonneg
  have hlam : 0 < eigen true p.sigma1 p.sigma2 p.rho := lt_of_le_of_lt (sq_nonneg _) hlt
  rw [h1, h2]
  have a := (l1.sqrt.round he he1 (z := A.sqrt (SpreadLatticeFl.lam1 A p))
    (by rw [abs_of_nonneg (sqrt_nonneg _)]; exact hA.sqrt _)).err
  rw [abs_of_nonneg (sqrt_nonneg _)] at a
  have h4 := one_le_exp (by linarith : 0 ≤ gapLevel e p.sigma1 p.sigma2 p.rho + 4 * level e)
  have hl0 : 0 ≤ lowErr e p.sigma1 p.sigma2 p.rho := by
    unfold lowErr condLow
    exact mul_nonneg (by linarith) (by positivity)
  have u : Rel (level (lowErr e p.sigma1 p.sigma2 p.rho)) (SpreadLatticeFl.lam2 A p)
      (eigen false p.sigma1 p.sigma2 p.rho) :=
    Rel.of_round hl0 hl (by
      rw [abs_of_pos hpos]
      refine l2.err.trans (le_of_eq ?_)
      unfold lowErr condLow
      rw [mul_assoc, div_mul_cancel₀ _ hpos.ne'])
  have b := (u.sqrt.round he he1 (z := A.sqrt (SpreadLatticeFl.lam2 A p))
    (by rw [abs_of_nonneg (sqrt_nonneg _)]; exact hA.sqrt _))
  have b0 := b.nonneg
  have b' := b.err
  rw [abs_of_nonneg (sqrt_nonneg _)] at b'
  exact ⟨a.mono (by linarith), b'.mono (by unfold lowLevel; linarith), hη, by unfold lowLevel; linarith⟩

/-- A factor of one step. -/
theorem sl_factor {w w' r r' s β₁ β₂ θ R dt dt' X : ℝ} (hw : Err β₁ w' w 2) (hr : Err β₂ r' r R) (hdt : Rel (level e) dt' dt)
    (hdt0 : 0 ≤ dt) (hβ₁ : 0 ≤ β₁) (hβ₂ : 0 ≤ β₂) (hθ : β₁ + β₂ + 5 * level e ≤ θ)
    (hX : 2 * R * √(3 * dt) + s ^ 2 / 2 * dt ≤ X) :
    Rel ((exp θ - 1) * X + level e)
      (A.exp (A.sub (A.mul (A.mul w' r') (A.sqrt (A.mul 3 dt'))) (A.mul (A.mul (A.mul 0.5 s) s) dt')))
      (exp (w * r * √(3 * dt) - 0.5 * s * s * dt)) := by
  have hL := kirk_level_nonneg he he1
  have lev : -log (1 - e) = level e := rfl
  have a1 := (hw.mul hr).round' he he1 (hA.mul _ _)
  have q1 := ((Rel.rfl' (y := (3 : ℝ))).mul hdt).round he he1 (hA.mul _ _)
  have q2 := (q1.sqrt.round he he1 (z := A.sqrt (A.mul 3 dt'))
    (by rw [abs_of_nonneg (sqrt_nonneg _)]; exact hA.sqrt _)).err
  rw [abs_of_nonneg (sqrt_nonneg _)] at q2
  have a2 := (a1.mul q2).round' he he1 (hA.mul _ _)
  have m1 := Rel.of_round he he1 (hA.mul 0.5 s)
  have m2 := (m1.mul (Rel.rfl' (y := s))).round he he1 (hA.mul _ _)
  have m3 := ((m2.mul hdt).round he he1 (hA.mul _ _)).err
  have m4 : |0.5 * s * s * dt| = s ^ 2 / 2 * dt := by
    rw [show 0.5 * s * s * dt = s ^ 2 / 2 * dt by ring, abs_of_nonneg (by positivity)]
  rw [m4] at m3
  have a3 := ((a2.mono (θ' := β₁ + β₂ + 4 * level e) (by linarith)).sub
    (m3.mono (θ' := β₁ + β₂ + 4 * level e) (by linarith))).round' he he1 (hA.sub _ _)
  have a4 := (a3.mono (θ' := θ) (by linarith)).weaken (by linarith) hX
  exact ((err_rel_exp a4).round he he1 (by rw [abs_of_pos (exp_pos _)]; exact hA.exp _)).mono (by linarith)

/-- A node. -/
theorem sl_gauss {h h' v v' ν : ℝ} (hh : Rel ν h' h) (hv : Rel ν v' v) {n i j : ℕ} (hi : i ≤ 2 * n) (hj : j ≤ 2 * n) :
    Rel (4 * n * (ν + level e) + 7 * level e) (SpreadLatticeFl.getGauss A h' v' n i j) (TreeSpread.getGauss h v n i j) := by
  have hL := kirk_level_nonneg he he1
  have lev : -log (1 - e) = level e := rfl
  have hν := hh.nonneg
  have g : ∀ {x x' : ℝ} (a b : ℕ), Rel ν x' x → a + b = 2 * n →
      Rel (2 * n * (ν + level e) + 3 * level e) (A.mul (A.pow x' a) (A.pow (A.div 1 x') b)) (x ^ a * (1 / x) ^ b) := by
    intro x x' a b hx hab
    have p1 := (hx.pow a).round he he1 (hA.pow _ _)
    have d := ((Rel.rfl' (y := (1 : ℝ))).div hx).round he he1 (hA.div _ _)
    have p2 := (d.pow b).round he he1 (hA.pow _ _)
    have m := (p1.mul p2).round he he1 (hA.mul _ _)
    refine m.mono ?_
    have e1 : (2 * n : ℝ) = a + b := by exact_mod_cast hab.symm
    have hlog : log (1 - e) = -level e := by linarith
    rw [e1, hlog]
    have : 0 ≤ (a : ℝ) * level e := by positivity
    linarith
  have m := ((g (2 * n - i) i hv (by omega)).mul (g j (2 * n - j) hh (by omega))).round he he1 (hA.mul _ _)
  exact m.mono (by linarith)

end

variable {e : ℝ} {A : ArithS}

/-- **C143.** The price computed in rounded arithmetic, with the nine terms of each average added in any order: its distance
from the price in exact arithmetic is at most `exp (priceLevel …) - 1` times the average, over the same terminal nodes and
with the same discounting, of the sum of the two asset prices and the strike. The three conditions say that rounding does
not destroy the eigenvalues and the angle. -/
theorem C143_price (hA : RoundedS e A) (he : 0 ≤ e) (he1 : e < 1) {sum : List ℝ → ℝ} {d : ℕ}
    (hs : ∀ l : List ℝ, l.length = 9 → Summed A.toArith d l (sum l)) (p : Par) {n : ℕ} (hn : 2 ≤ n) (ht : 0 ≤ p.t)
    (hq : p.rho * p.sigma1 * p.sigma2 ≠ 0) (hρ : p.rho ^ 2 < 1) (hg : gapErr e p.sigma1 p.sigma2 p.rho < 1)
    (hl : lowErr e p.sigma1 p.sigma2 p.rho < 1) (ha : angleErr e p.sigma1 p.sigma2 p.rho < 1) :
    ∃ v' v, SpreadLatticeFl.call A sum p n = .ok v' ∧ TreeSpread.call p n = .ok v ∧
      |v' - v| ≤ (exp (priceLevel e p.sigma1 p.sigma2 p.rho p.b p.r p.t n d) - 1)
        * (exp (n * p.b - p.r * p.t) * latticeMean n
          (fun i j => |TreeSpread.S1T p n i j| + |TreeSpread.S2T p n i j| + |p.K|)) := by
  have hL := kirk_level_nonneg he he1
  have lev : -log (1 - e) = level e := rfl
  have hn0 : (n : ℝ) ≠ 0 := by
    have : 0 < n := by omega
    positivity
  have hdt0 : 0 ≤ p.t / n := by positivity
  have hdt : Rel (level e) (A.div p.t n) (p.t / n) := Rel.of_round he he1 (hA.div _ _)
  obtain ⟨s1, c1⟩ := sl_sin hA he he1 p hg ha hq hρ
  obtain ⟨-, hang⟩ := sl_angle hA he he1 p hg ha hq hρ
  obtain ⟨q1, q2, hgap, hlow⟩ := sl_roots hA he he1 p hg hl hq hρ
  have hX0 : 0 ≤ expSize p.sigma1 p.sigma2 p.rho (p.t / n) := by unfold expSize; positivity
  set ν := factorLevel e p.sigma1 p.sigma2 p.rho (p.t / n) with hν
  have r1 := sqrt_nonneg (eigen true p.sigma1 p.sigma2 p.rho)
  have r2 := sqrt_nonneg (eigen false p.sigma1 p.sigma2 p.rho)
  have r3 := sqrt_nonneg (3 * (p.t / n))
  have x1 := mul_nonneg r1 r3
  have x2 := mul_nonneg r2 r3
  have y1 := mul_nonneg (sq_nonneg p.sigma1) hdt0
  have y2 := mul_nonneg (sq_nonneg p.sigma2) hdt0
  have ms := ((Err.rfl' (y := (-1 : ℝ)) (B := 1) (by norm_num)).mul s1).round' he he1 (hA.mul (-1) _)
  have ms' : Err (angleLevel e p.sigma1 p.sigma2 p.rho + 2 * level e) (A.mul (-1) (A.sin (SpreadLatticeFl.the A p)))
      (-1 * sin (TreeSpread.the p)) 2 := by
    rw [one_mul] at ms
    exact ms.mono (by linarith)
  have H1 : Rel ν (SpreadLatticeFl.h1 A p (A.div p.t n)) (TreeSpread.h1 p (p.t / n)) :=
    sl_factor hA he he1 ms' q2 hdt hdt0 (by linarith) hlow (by linarith) (by unfold expSize; linarith)
  have V1 : Rel ν (SpreadLatticeFl.v1 A p (A.div p.t n)) (TreeSpread.v1 p (p.t / n)) :=
    sl_factor hA he he1 c1 q1 hdt hdt0 (by linarith) (by linarith) (by linarith) (by unfold expSize; linarith)
  have H2 : Rel ν (SpreadLatticeFl.h2 A p (A.div p.t n)) (TreeSpread.h2 p (p.t / n)) :=
    sl_factor hA he he1 c1 q2 hdt hdt0 (by linarith) hlow (by linarith) (by unfold expSize; linarith)
  have V2 : Rel ν (SpreadLatticeFl.v2 A p (A.div p.t n)) (TreeSpread.v2 p (p.t / n)) :=
    sl_factor hA he he1 s1 q1 hdt hdt0 (by linarith) (by linarith) (by linarith) (by unfold expSize; linarith)
  have hν0 := H1.nonneg
  have hnν : 0 ≤ 4 * n * (ν + level e) := by positivity
  -- the payoff
  have pay : ∀ i ≤ 2 * n, ∀ j ≤ 2 * n, Err (4 * n * (ν + level e) + 11 * level e)
      (max 0 (A.mul (A.sub (A.sub (SpreadLatticeFl.S1T A p n i j) (SpreadLatticeFl.S2T A p n i j)) p.K) 1))
      (max 0 (TreeSpread.S1T p n i j - TreeSpread.S2T p n i j - p.K))
      (|TreeSpread.S1T p n i j| + |TreeSpread.S2T p n i j| + |p.K|) := by
    intro i hi j hj
    have a1 := (((Rel.rfl' (y := p.S1)).mul (sl_gauss hA he he1 H1 V1 hi hj)).round he he1 (hA.mul _ _)).err
    have a2 := (((Rel.rfl' (y := p.S2)).mul (sl_gauss hA he he1 H2 V2 hi hj)).round he he1 (hA.mul _ _)).err
    have a3 := (a1.sub a2).round' he he1 (hA.sub _ _)
    have k : Err 0 p.K p.K |p.K| := Err.rfl' le_rfl
    have a4 := (a3.sub (k.mono (by linarith))).round' he he1 (hA.sub _ _)
    have one : Err 0 (1 : ℝ) 1 1 := Err.rfl' (by norm_num)
    have a5 := (a4.mul one).round' he he1 (hA.mul _ 1)
    rw [mul_one, mul_one] at a5
    have z : Err (4 * n * (ν + level e) + 11 * level e) (0 : ℝ) 0
        (|TreeSpread.S1T p n i j| + |TreeSpread.S2T p n i j| + |p.K|) :=
      (Err.rfl' (by rw [abs_zero]; positivity)).mono (by linarith)
    exact z.max (a5.mono (by linarith))
  -- the discount factor
  have D : Err (dfLevel e p.b p.r (p.t / n)) (SpreadLatticeFl.Df A p (A.div p.t n)) (TreeSpread.Df p (p.t / n))
      (TreeSpread.Df p (p.t / n)) := by
    have b1 := (((Rel.rfl' (y := p.r)).mul hdt).round he he1 (hA.mul _ _)).err
    rw [abs_mul, abs_of_nonneg hdt0] at b1
    have b2 : Err 0 p.b p.b |p.b| := Err.rfl' le_rfl
    have b3 := ((b2.mono (θ' := 2 * level e) (by linarith)).sub (b1.mono (θ' := 2 * level e) (by linarith))).round' he he1
      (hA.sub _ _)
    have b4 := ((err_rel_exp (b3.mono (θ' := 3 * level e) (by linarith))).round he he1
      (z := A.exp (A.sub p.b (A.mul p.r (A.div p.t n)))) (by rw [abs_of_pos (exp_pos _)]; exact hA.exp _)).err
    rw [abs_of_pos (exp_pos _)] at b4
    exact b4.mono (by unfold dfLevel; linarith)
  have hγ : 0 ≤ dfLevel e p.b p.r (p.t / n) := by
    have := one_le_exp (by linarith : 0 ≤ 3 * level e)
    have : 0 ≤ (exp (3 * level e) - 1) * (|p.b| + |p.r| * (p.t / n)) := mul_nonneg (by linarith) (by positivity)
    unfold dfLevel; linarith
  obtain ⟨m, hm, hE⟩ := sl_rollback hA he he1 hs (θ := 4 * n * (ν + level e) + 11 * level e) (by linarith) D hγ
    (V := ⟨2 * n + 1, fun i j =>
      max 0 (A.mul (A.sub (A.sub (SpreadLatticeFl.S1T A p n i j) (SpreadLatticeFl.S2T A p n i j)) p.K) 1)⟩) hn rfl pay
  have hdf : TreeSpread.Df p (p.t / n) ^ n = exp (n * p.b - p.r * p.t) := by
    rw [TreeSpread.Df, ← exp_nat_mul]
    congr 1
    field_simp
  refine ⟨A.mul (SpreadLatticeFl.window A sum m (n - 1) (n - 1)) (SpreadLatticeFl.Df A p (A.div p.t n)), _, ?_,
    TreeSpread.call_eq p n hn, ?_⟩
  · unfold SpreadLatticeFl.call
    simp only [if_neg (show n ≠ 0 by omega), hm]
    rfl
  · have := hE.err
    rw [hdf] at this ⊢
    exact this

/-- **C143.** In double precision, with at most nine additions per term: the error is below `5e-7` of the two legs and the
strike when at most two digits cancel in each of gap, smaller eigenvalue and angle, the exponents of the `n` steps add up to
at most `100`, `n` is at most `10000` and the exponent of a discount factor at most `1`. -/
theorem C143_double (hA : RoundedS e A) (he : 0 ≤ e) (he1 : e ≤ 2⁻¹ ^ 53) {sum : List ℝ → ℝ}
    (hs : ∀ l : List ℝ, l.length = 9 → Summed A.toArith 9 l (sum l)) (p : Par) {n : ℕ} (hn : 2 ≤ n) (hn4 : n ≤ 10000)
    (ht : 0 ≤ p.t) (hq : p.rho * p.sigma1 * p.sigma2 ≠ 0) (hρ : p.rho ^ 2 < 1)
    (hg : condGap p.sigma1 p.sigma2 p.rho ≤ 100) (hl : condLow p.sigma1 p.sigma2 p.rho ≤ 100)
    (ha : condAngle p.sigma1 p.sigma2 p.rho ≤ 100) (hx : n * expSize p.sigma1 p.sigma2 p.rho (p.t / n) ≤ 100)
    (hb : |p.b| + |p.r| * (p.t / n) ≤ 1) :
    ∃ v' v, SpreadLatticeFl.call A sum p n = .ok v' ∧ TreeSpread.call p n = .ok v ∧
      |v' - v| ≤ 5e-7 * (exp (n * p.b - p.r * p.t) * latticeMean n
          (fun i j => |TreeSpread.S1T p n i j| + |TreeSpread.S2T p n i j| + |p.K|)) := by
  have he53 : e ≤ 1.2e-16 := he1.trans (by norm_num)
  have hlt : e < 1 := by linarith
  have hl0 : 0 ≤ level e := kirk_level_nonneg he hlt
  have hL : level e ≤ 2.4e-16 := (kirk_level_le he (by linarith)).trans (by linarith)
  obtain ⟨hpos, hgt⟩ := sl_eigen_pos p hq hρ
  have hlam : 0 < eigen true p.sigma1 p.sigma2 p.rho := lt_of_le_of_lt (sq_nonneg _) hgt
  have k1 : 0 ≤ condGap p.sigma1 p.sigma2 p.rho := by unfold condGap; positivity
  have k2 : 0 ≤ condLow p.sigma1 p.sigma2 p.rho := by unfold condLow; positivity
  have k3 : 0 ≤ condAngle p.sigma1 p.sigma2 p.rho := by
    have := sub_pos.2 hgt
    unfold condAngle; positivity
  have h8 := kirk_exp_sub_one_le (x := 8 * level e) (by linarith) (by linarith)
  have h8n := one_le_exp (by linarith : 0 ≤ 8 * level e)
  have g0 : 0 ≤ gapErr e p.sigma1 p.sigma2 p.rho := mul_nonneg (by linarith) k1
  have g1 : gapErr e p.sigma1 p.sigma2 p.rho ≤ 3.84e-15 * 100 := mul_le_mul (by linarith) hg k1 (by norm_num)
  have g2 : level (gapErr e p.sigma1 p.sigma2 p.rho) ≤ _ := kirk_level_le g0 (by linarith)
  have g3 : 0 ≤ level (gapErr e p.sigma1 p.sigma2 p.rho) := kirk_level_nonneg g0 (by linarith)
  have g4 : gapLevel e p.sigma1 p.sigma2 p.rho ≤ 3.9e-13 := by unfold gapLevel; linarith
  have g5 : 0 ≤ gapLevel e p.sigma1 p.sigma2 p.rho := by unfold gapLevel; linarith
  have h4 := kirk_exp_sub_one_le (x := gapLevel e p.sigma1 p.sigma2 p.rho + 4 * level e) (by linarith) (by linarith)
  have h4n := one_le_exp (by linarith : 0 ≤ gapLevel e p.sigma1 p.sigma2 p.rho + 4 * level e)
  have l0 : 0 ≤ lowErr e p.sigma1 p.sigma2 p.rho := mul_nonneg (by linarith) k2
  have l1 : lowErr e p.sigma1 p.sigma2 p.rho ≤ 7.9e-13 * 100 := mul_le_mul (by linarith) hl k2 (by norm_num)
  have l2 : level (lowErr e p.sigma1 p.sigma2 p.rho) ≤ _ := kirk_level_le l0 (by linarith)
  have l3 : 0 ≤ level (lowErr e p.sigma1 p.sigma2 p.rho) := kirk_level_nonneg l0 (by linarith)
  have l4 : lowLevel e p.sigma1 p.sigma2 p.rho ≤ 8e-11 := by unfold lowLevel; linarith
  have l5 : 0 ≤ lowLevel e p.sigma1 p.sigma2 p.rho := by unfold lowLevel; linarith
  have h5 := kirk_exp_sub_one_le (x := gapLevel e p.sigma1 p.sigma2 p.rho + 5 * level e) (by linarith) (by linarith)
  have h5n := one_le_exp (by linarith : 0 ≤ gapLevel e p.sigma1 p.sigma2 p.rho + 5 * level e)
  have a0 : 0 ≤ angleErr e p.sigma1 p.sigma2 p.rho := mul_nonneg (by linarith) k3
  have a1 : angleErr e p.sigma1 p.sigma2 p.rho ≤ 7.9e-13 * 100 := mul_le_mul (by linarith) ha k3 (by norm_num)
  have a2 : level (angleErr e p.sigma1 p.sigma2 p.rho) ≤ _ := kirk_level_le a0 (by linarith)
  have a3 : 0 ≤ level (angleErr e p.sigma1 p.sigma2 p.rho) := kirk_level_nonneg a0 (by linarith)
  have a4 : angleLevel e p.sigma1 p.sigma2 p.rho ≤ 1.61e-10 := by unfold angleLevel; linarith
  have a5 : 0 ≤ angleLevel e p.sigma1 p.sigma2 p.rho := by unfold angleLevel; linarith
  obtain ⟨v', v, q1, q2, q3⟩ := C143_price hA he hlt hs p hn ht hq hρ (by linarith) (by linarith) (by linarith)
  refine ⟨v', v, q1, q2, q3.trans (mul_le_mul_of_nonneg_right ?_ ?_)⟩
  · have hn0 : (0 : ℝ) ≤ n := Nat.cast_nonneg n
    have hn1 : (n : ℝ) ≤ 10000 := by exact_mod_cast hn4
    have hdt0 : 0 ≤ p.t / n := by positivity
    have X0 : 0 ≤ expSize p.sigma1 p.sigma2 p.rho (p.t / n) := by unfold expSize; positivity
    set θ := gapLevel e p.sigma1 p.sigma2 p.rho + lowLevel e p.sigma1 p.sigma2 p.rho
      + angleLevel e p.sigma1 p.sigma2 p.rho + 9 * level e with hθ
    have h9 := kirk_exp_sub_one_le (x := θ) (by linarith) (by linarith)
    have h9n := one_le_exp (by linarith : 0 ≤ θ)
    have m1 : (exp θ - 1) * (n * expSize p.sigma1 p.sigma2 p.rho (p.t / n)) ≤ 5e-10 * 100 :=
      mul_le_mul (by linarith) hx (mul_nonneg hn0 X0) (by norm_num)
    have m2 : (n : ℝ) * level e ≤ 10000 * 2.4e-16 := mul_le_mul hn1 hL hl0 (by norm_num)
    have h3 := kirk_exp_sub_one_le (x := 3 * level e) (by linarith) (by linarith)
    have h3n := one_le_exp (by linarith : 0 ≤ 3 * level e)
    have m3 : (exp (3 * level e) - 1) * (|p.b| + |p.r| * (p.t / n)) ≤ 1.44e-15 * 1 :=
      mul_le_mul (by linarith) hb (by positivity) (by norm_num)
    have m30 : 0 ≤ (exp (3 * level e) - 1) * (|p.b| + |p.r| * (p.t / n)) := mul_nonneg (by linarith) (by positivity)
    have m4 : (n : ℝ) * ((exp (3 * level e) - 1) * (|p.b| + |p.r| * (p.t / n))) ≤ 10000 * (1.44e-15 * 1) :=
      mul_le_mul hn1 m3 m30 (by norm_num)
    have hP : priceLevel e p.sigma1 p.sigma2 p.rho p.b p.r p.t n 9
        = 4 * ((exp θ - 1) * (n * expSize p.sigma1 p.sigma2 p.rho (p.t / n))) + 21 * (n * level e) + 11 * level e
          + n * ((exp (3 * level e) - 1) * (|p.b| + |p.r| * (p.t / n))) := by
      unfold priceLevel factorLevel dfLevel
      rw [← hθ]
      push_cast
      ring
    have m0 : 0 ≤ (exp θ - 1) * (n * expSize p.sigma1 p.sigma2 p.rho (p.t / n)) :=
      mul_nonneg (by linarith) (mul_nonneg hn0 X0)
    have hP1 : priceLevel e p.sigma1 p.sigma2 p.rho p.b p.r p.t n 9 ≤ 2.1e-7 := by rw [hP]; linarith
    have hP0 : 0 ≤ priceLevel e p.sigma1 p.sigma2 p.rho p.b p.r p.t n 9 := by
      rw [hP]
      have := mul_nonneg hn0 hl0
      have := mul_nonneg hn0 m30
      linarith
    have := kirk_exp_sub_one_le hP0 (by linarith)
    linarith
  · refine mul_nonneg (exp_pos _).le ?_
    unfold latticeMean
    exact Finset.sum_nonneg fun i _ => Finset.sum_nonneg fun j _ =>
      mul_nonneg (mul_nonneg (TreeSpread.tri_nonneg _ _) (TreeSpread.tri_nonneg _ _)) (by positivity)

/-- An arithmetic that rounds every result away from zero. -/
noncomputable def biasedS (e : ℝ) : ArithS :=
  { biased e with sin := fun x => sin x * (1 + e), cos := fun x => cos x * (1 + e) }

/-- A case: the demonstration at the end of the file with its hundred steps, in an arithmetic that is not exact. -/
theorem C143_example :
    RoundedS (2⁻¹ ^ 53) (biasedS (2⁻¹ ^ 53)) ∧ (biasedS (2⁻¹ ^ 53)).add 1 1 ≠ 2 ∧
    ∃ v' v, SpreadLatticeFl.call (biasedS (2⁻¹ ^ 53)) (leftSum (biasedS (2⁻¹ ^ 53)).toArith) spreadDemo 100 = .ok v' ∧
      TreeSpread.call spreadDemo 100 = .ok v ∧
      |v' - v| ≤ 5e-7 * (exp (100 * 0.03 - 0.03 * (1 / 12)) * latticeMean 100
          (fun i j => |TreeSpread.S1T spreadDemo 100 i j| + |TreeSpread.S2T spreadDemo 100 i j| + |0|)) := by
  obtain ⟨hT, hb, -⟩ := C100_example
  have key : ∀ x : ℝ, |x * (1 + 2⁻¹ ^ 53) - x| ≤ 2⁻¹ ^ 53 * |x| := fun x => by
    rw [show x * (1 + 2⁻¹ ^ 53) - x = 2⁻¹ ^ 53 * x by ring, abs_mul, abs_of_pos (by positivity)]
  have hA : RoundedS (2⁻¹ ^ 53) (biasedS (2⁻¹ ^ 53)) :=
    { toRoundedT := hT, sin := fun x => key _, cos := fun x => key _ }
  refine ⟨hA, hb, ?_⟩
  have hr : √((0.2 ^ 2 - 0.1 ^ 2) ^ 2 + 4 * (0.5 * 0.2 * 0.1) ^ 2 : ℝ) = √0.0013 := by norm_num
  have r1 : 0.036 ≤ √(0.0013 : ℝ) := le_sqrt_of_sq_le (by norm_num)
  have r2 : √(0.0013 : ℝ) ≤ 0.0361 := sqrt_le_iff.2 (by norm_num)
  have e1 : eigen true 0.2 0.1 0.5 = (0.05 + √0.0013) / 2 := by
    unfold eigen; simp only [if_true]; rw [hr]; norm_num
  have e2 : eigen false 0.2 0.1 0.5 = (0.05 - √0.0013) / 2 := by
    unfold eigen; simp only [Bool.false_eq_true, if_false]; rw [hr]; ring
  have := C143_double hA (by positivity) le_rfl (sum := leftSum (biasedS (2⁻¹ ^ 53)).toArith)
    (fun l hl => by have := leftSum_summed (biasedS (2⁻¹ ^ 53)).toArith l; rwa [hl] at this) spreadDemo (n := 100)
    (by norm_num) (by norm_num) (by norm_num [spreadDemo]) (by norm_num [spreadDemo]) (by norm_num [spreadDemo])
    (by unfold condGap spreadDemo; norm_num)
    (by
      show eigen true 0.2 0.1 0.5 / eigen false 0.2 0.1 0.5 ≤ 100
      rw [e1, e2, div_le_iff₀ (by linarith)]; linarith)
    (by
      show (eigen true 0.2 0.1 0.5 + 0.2 ^ 2) / (eigen true 0.2 0.1 0.5 - 0.2 ^ 2) ≤ 100
      rw [e1, div_le_iff₀ (by linarith)]; linarith)
    (by
      show ((100 : ℕ) : ℝ) * (2 * (√(eigen true 0.2 0.1 0.5) + √(eigen false 0.2 0.1 0.5)) * √(3 * (1 / 12 / (100 : ℕ)))
        + (0.2 ^ 2 + 0.1 ^ 2) / 2 * (1 / 12 / (100 : ℕ))) ≤ 100
      have s1 : √(eigen true 0.2 0.1 0.5) ≤ 1 := sqrt_le_one.2 (by rw [e1]; linarith)
      have s2 : √(eigen false 0.2 0.1 0.5) ≤ 1 := sqrt_le_one.2 (by rw [e2]; linarith)
      have s3 : √(3 * (1 / 12 / (100 : ℕ)) : ℝ) ≤ 0.05 := sqrt_le_iff.2 (by norm_num)
      have s4 := sqrt_nonneg (3 * (1 / 12 / (100 : ℕ)) : ℝ)
      have s5 : 2 * (√(eigen true 0.2 0.1 0.5) + √(eigen false 0.2 0.1 0.5)) * √(3 * (1 / 12 / (100 : ℕ))) ≤ 4 * 0.05 :=
        mul_le_mul (by linarith) s3 s4 (by norm_num)
      push_cast at *
      linarith)
    (by
      show |(0.03 : ℝ)| + |(0.03 : ℝ)| * (1 / 12 / (100 : ℕ)) ≤ 1
      rw [abs_of_pos (by norm_num)]; norm_num)
  simpa [spreadDemo] using this

end Verif.Props
