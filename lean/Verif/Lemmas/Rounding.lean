import Verif.Spec.Rounding
import Verif.Lemmas.TreeVal
import Mathlib.Analysis.SpecialFunctions.Log.Basic

/-! Forward error analysis: `Err θ x y B` says that `x` approximates `y` within `(exp θ - 1) B`, where
`B` bounds `|y|`. The levels `θ` add up along a computation. -/
namespace Verif
open Py Spec Real _root_.Verif.Tree

/-- `x` approximates `y` up to `(exp θ - 1) B`, with `|y| ≤ B`. -/
structure Err (θ x y B : ℝ) : Prop where
  err : |x - y| ≤ (exp θ - 1) * B
  bound : |y| ≤ B

namespace Err
variable {θ θ' x y B x' y' B' : ℝ}

theorem nonneg (h : Err θ x y B) : 0 ≤ B := (abs_nonneg _).trans h.bound

theorem rfl' (hB : |y| ≤ B) : Err 0 y y B := ⟨by simp, hB⟩

theorem mono (h : Err θ x y B) (hθ : θ ≤ θ') : Err θ' x y B :=
  ⟨h.err.trans (mul_le_mul_of_nonneg_right (by gcongr) h.nonneg), h.bound⟩

theorem weaken (h : Err θ x y B) (h0 : 0 ≤ θ) (hB : B ≤ B') : Err θ x y B' :=
  ⟨h.err.trans (mul_le_mul_of_nonneg_left hB (by linarith [one_le_exp h0])), h.bound.trans hB⟩

theorem abs_le (h : Err θ x y B) : |x| ≤ exp θ * B := by
  have : |x| ≤ |x - y| + |y| := by
    calc |x| = |(x - y) + y| := by ring_nf
      _ ≤ _ := abs_add_le _ _
  nlinarith [h.err, h.bound]

theorem add (h : Err θ x y B) (h' : Err θ x' y' B') : Err θ (x + x') (y + y') (B + B') := by
  refine ⟨?_, (abs_add_le _ _).trans (add_le_add h.bound h'.bound)⟩
  calc |x + x' - (y + y')| = |(x - y) + (x' - y')| := by ring_nf
    _ ≤ _ := abs_add_le _ _
    _ ≤ _ := by nlinarith [h.err, h'.err]

theorem neg (h : Err θ x y B) : Err θ (-x) (-y) B :=
  ⟨by rw [show -x - -y = -(x - y) by ring, abs_neg]; exact h.err, by rw [abs_neg]; exact h.bound⟩

theorem sub (h : Err θ x y B) (h' : Err θ x' y' B') : Err θ (x - x') (y - y') (B + B') := by
  rw [sub_eq_add_neg, sub_eq_add_neg]
  exact h.add h'.neg

theorem mul (h : Err θ x y B) (h' : Err θ' x' y' B') : Err (θ + θ') (x * x') (y * y') (B * B') := by
  refine ⟨?_, by rw [abs_mul]; exact mul_le_mul h.bound h'.bound (abs_nonneg _) h.nonneg⟩
  calc |x * x' - y * y'| = |(x - y) * x' + y * (x' - y')| := by ring_nf
    _ ≤ |x - y| * |x'| + |y| * |x' - y'| := by
        rw [← abs_mul, ← abs_mul]; exact abs_add_le _ _
    _ ≤ ((exp θ - 1) * B) * (exp θ' * B') + B * ((exp θ' - 1) * B') :=
        add_le_add
          (mul_le_mul h.err h'.abs_le (abs_nonneg _) ((abs_nonneg _).trans h.err))
          (mul_le_mul h.bound h'.err (abs_nonneg _) h.nonneg)
    _ = _ := by rw [exp_add]; ring

theorem max (h : Err θ x y B) (h' : Err θ x' y' B) : Err θ (max x x') (max y y') B := by
  refine ⟨(abs_max_sub_max_le_max _ _ _ _).trans (max_le h.err h'.err), ?_⟩
  rw [_root_.abs_le]
  have h1 := _root_.abs_le.1 h.bound
  have h2 := _root_.abs_le.1 h'.bound
  exact ⟨h1.1.trans (le_max_left _ _), max_le h1.2 h2.2⟩

/-- Rounding an approximation. -/
theorem round {e z : ℝ} (h : Err θ x y B) (he : 0 ≤ e) (hz : |z - x| ≤ e * |x|) :
    Err (θ + log (1 + e)) z y B := by
  refine ⟨?_, h.bound⟩
  rw [exp_add, exp_log (by linarith)]
  calc |z - y| = |(z - x) + (x - y)| := by ring_nf
    _ ≤ |z - x| + |x - y| := abs_add_le _ _
    _ ≤ e * (exp θ * B) + (exp θ - 1) * B := by
        have := mul_le_mul_of_nonneg_left h.abs_le he
        linarith [h.err]
    _ = _ := by ring

/-- The exponential turns absolute into relative errors. -/
theorem exp' (h : Err θ x y B) : Err ((exp θ - 1) * B) (exp x) (exp y) (exp y) := by
  refine ⟨?_, by rw [abs_of_pos (exp_pos _)]⟩
  obtain ⟨h1, h2⟩ := _root_.abs_le.1 h.err
  rw [show rexp x - rexp y = (rexp (x - y) - 1) * rexp y by rw [exp_sub]; field_simp, abs_mul,
    abs_of_pos (exp_pos y)]
  refine mul_le_mul_of_nonneg_right ?_ (exp_pos y).le
  generalize (rexp θ - 1) * B = D at *
  rw [_root_.abs_le]
  have h3 : rexp (x - y) ≤ rexp D := by gcongr
  have h4 : rexp (-D) ≤ rexp (x - y) := by gcongr
  refine ⟨?_, by linarith⟩
  have h5 : 2 ≤ rexp D + rexp (-D) := by
    have := add_one_le_exp D
    rw [exp_neg]
    have hp := exp_pos D
    have h6 : 0 ≤ (rexp D - 1) ^ 2 / rexp D := by positivity
    have h7 : (rexp D - 1) ^ 2 / rexp D = rexp D + (rexp D)⁻¹ - 2 := by field_simp; ring
    linarith
  linarith

/-- A power of an approximation. -/
theorem pow (h : Err θ x y B) (k : ℕ) : Err (k * θ) (x ^ k) (y ^ k) (B ^ k) := by
  induction k with
  | zero => simpa using rfl' (y := 1) (B := 1) (by simp)
  | succ k ih =>
    rw [pow_succ, pow_succ, pow_succ]
    convert ih.mul h using 1
    push_cast; ring

theorem abs' (h : Err θ x y B) : Err θ |x| |y| B :=
  ⟨(abs_abs_sub_abs_le _ _).trans h.err, by rw [abs_abs]; exact h.bound⟩

end Err

/-- Square root of a number known up to a relative error. -/
theorem sqrt_relative {e x y : ℝ} (he1 : e ≤ 1) (hy : 0 ≤ y) (h : |x - y| ≤ e * y) :
    |√x - √y| ≤ e * √y := by
  obtain ⟨h1, h2⟩ := abs_le.1 h
  rcases hy.eq_or_lt with rfl | hy
  · have : x = 0 := by
      have := abs_nonpos_iff.1 (h.trans (by simp)); linarith
    simp [this]
  have he : 0 ≤ e := by
    by_contra hc
    have := (abs_nonneg _).trans h
    nlinarith
  have hs : 0 < √y := sqrt_pos.2 hy
  have hx : 0 ≤ x := by nlinarith
  have hsq : √y * √y = y := mul_self_sqrt hy.le
  have hxq : √x * √x = x := mul_self_sqrt hx
  rw [abs_le]
  constructor
  · by_contra hc
    push Not at hc
    have h3 : √x < (1 - e) * √y := by linarith
    have h4 : 0 ≤ √x := sqrt_nonneg _
    have h5 : √x * √x < ((1 - e) * √y) * ((1 - e) * √y) := by nlinarith
    have h6 : ((1 - e) * √y) * ((1 - e) * √y) = (1 - e) * (1 - e) * y := by
      linear_combination (1 - e) ^ 2 * hsq
    nlinarith
  · by_contra hc
    push Not at hc
    have h3 : (1 + e) * √y < √x := by linarith
    have h5 : ((1 + e) * √y) * ((1 + e) * √y) < √x * √x := by
      have : 0 < (1 + e) * √y := by positivity
      nlinarith
    have h6 : ((1 + e) * √y) * ((1 + e) * √y) = (1 + e) * (1 + e) * y := by
      linear_combination (1 + e) ^ 2 * hsq
    nlinarith

/-! ### Loops without the recorded tree -/

/-- One sweep in place. -/
theorem sweep_val {R : Type} (cell : ℕ → List R → Except PyErr R) (m : ℕ) (ov : List R) (new : ℕ → R)
    (hm : m ≤ ov.length)
    (hcell : ∀ i < m, ∀ l : List R, l.length = ov.length → (∀ k, i ≤ k → l[k]? = ov[k]?) →
      cell i l = .ok (new i)) :
    (List.range m).foldlM (init := ov) (fun l i => do
      let v ← cell i l
      setI l i v : List R → ℕ → Except PyErr (List R))
    = .ok ((List.range m).map new ++ ov.drop m) := by
  induction m with
  | zero => simp [pure, Except.pure]
  | succ m ih =>
    rw [List.range_succ, List.foldlM_append, ih (by omega) (fun i hi => hcell i (by omega))]
    have hlen : ((List.range m).map new ++ ov.drop m).length = ov.length := by
      simp; omega
    have hc := hcell m (by omega) ((List.range m).map new ++ ov.drop m) hlen (by
      intro k hk
      rw [List.getElem?_append_right (by simpa using hk)]
      simp [List.getElem?_drop, Nat.add_sub_cancel' hk])
    have hset : ((List.range m).map new ++ ov.drop m).set m (new m)
        = (List.range m).map new ++ new m :: ov.drop (m + 1) := by
      rw [List.set_append_right _ _ (by simp)]
      simp only [List.length_map, List.length_range, Nat.sub_self]
      rw [List.drop_eq_getElem_cons (by omega : m < ov.length)]
      rfl
    simp only [bind, Except.bind, List.foldlM_cons, List.foldlM_nil, hc]
    rw [setI_ok (by omega), hset]
    simp [pure, Except.pure, List.map_append]

/-- The whole rollback. -/
theorem rollback_val {R : Type} (cell : ℕ → ℕ → List R → Except PyErr R) (w : ℕ → ℕ) (V : ℕ → ℕ → R)
    (N : ℕ) (j : ℕ) (ov : List R) (hlen : ov.length = N)
    (hw : ∀ i < j, w i ≤ N)
    (hov : ∀ k < w j, ov[k]? = some (V j k))
    (hcell : ∀ q < j, ∀ i < w q, ∀ l : List R, l.length = N →
      (∀ k, i ≤ k → k < w (q + 1) → l[k]? = some (V (q + 1) k)) → cell q i l = .ok (V q i)) :
    ∃ ov', (List.range j).reverse.foldlM (init := ov) (fun l q =>
        (List.range (w q)).foldlM (init := l) (fun l i => do
          let v ← cell q i l
          setI l i v) : List R → ℕ → Except PyErr (List R))
      = .ok ov' ∧ ∀ k < w 0, ov'[k]? = some (V 0 k) := by
  induction j generalizing ov with
  | zero => exact ⟨ov, by simp [pure, Except.pure], hov⟩
  | succ j ih =>
    have hs := sweep_val (cell j) (w j) ov (V j)
      (by rw [hlen]; exact hw j (by omega)) (fun i hi l hl hk => hcell j (by omega) i hi l (by omega)
        (fun k hik hkw => by rw [hk k hik, hov k hkw]))
    have hlen' : ((List.range (w j)).map (V j) ++ ov.drop (w j)).length = N := by
      have := hw j (by omega)
      simp [hlen]; omega
    obtain ⟨ov', h1, h3⟩ := ih ((List.range (w j)).map (V j) ++ ov.drop (w j)) hlen'
      (fun i hi => hw i (by omega))
      (fun k hk => by rw [List.getElem?_append_left (by simpa using hk)]; simp [hk])
      (fun q hq => hcell q (by omega))
    refine ⟨ov', ?_, h3⟩
    rw [List.range_succ, List.reverse_append, List.reverse_singleton, List.singleton_append,
      List.foldlM_cons]
    simp only [bind, Except.bind] at hs h1 ⊢
    rw [hs]
    exact h1

/-- Dropping the recorded tree from a loop. -/
theorem foldlM_fst {α β γ : Type} (F : α × β → γ → Except PyErr (α × β)) (G : α → γ → Except PyErr α)
    (h : ∀ st i, (Prod.fst <$> F st i) = G st.1 i) (l : List γ) (st : α × β) :
    (Prod.fst <$> l.foldlM F st) = l.foldlM G st.1 := by
  induction l generalizing st with
  | nil => rfl
  | cons i l ih =>
    rw [List.foldlM_cons, List.foldlM_cons, ← h st i]
    cases hF : F st i with
    | error e => rfl
    | ok st' => exact ih st'

/-! ### Binomial trees -/

section binomial
variable {e : ℝ} {A : Arith} (hA : Rounded e A) (he : 0 ≤ e)
include hA he

/-- The exercise value at a node. -/
theorem exercise_err {S K u d u' d' a : ℝ} (hS : 0 ≤ S) (hK : 0 ≤ K) (hu : Err a u' u u)
    (hd : Err a d' d d) (ha : 0 ≤ a) (isCall : Bool) (i j : ℕ) :
    Err (6 * log (1 + e) + (i + j : ℕ) * a) (TreeFl.exercise A S K u' d' (zOf isCall) i j)
      (zOf isCall * (S * u ^ i * d ^ j - K)) (S * u ^ i * d ^ j + K) := by
  have hL : 0 ≤ log (1 + e) := log_nonneg (by linarith)
  have h1 := ((Err.rfl' (y := S) (B := S) (abs_of_nonneg hS).le).mul
    ((hu.pow i).round he (hA.pow u' i))).round he (hA.mul S _)
  have h2 := (h1.mul ((hd.pow j).round he (hA.pow d' j))).round he (hA.mul _ _)
  have h3 := (h2.sub ((Err.rfl' (y := K) (B := K) (abs_of_nonneg hK).le).mono
    (by positivity))).round he (hA.sub _ _)
  have hz : |(zOf isCall : ℝ)| ≤ 1 := by cases isCall <;> simp [zOf]
  have h4 := ((Err.rfl' hz).mul h3).round he (hA.mul _ _)
  rw [one_mul] at h4
  refine h4.mono (le_of_eq ?_)
  push_cast; ring

theorem terminal_err {S K u d u' d' a : ℝ} (hS : 0 ≤ S) (hK : 0 ≤ K) (hu : Err a u' u u)
    (hd : Err a d' d d) (ha : 0 ≤ a) (isCall : Bool) (i j : ℕ) :
    Err (8 * log (1 + e) + (i + j : ℕ) * a)
      (A.div (A.add |TreeFl.exercise A S K u' d' (zOf isCall) i j|
        (TreeFl.exercise A S K u' d' (zOf isCall) i j)) 2)
      (payoff isCall (S * u ^ i * d ^ j) K) (S * u ^ i * d ^ j + K) := by
  have h1 := exercise_err hA he hS hK hu hd ha isCall i j
  have h2 := (h1.abs'.add h1).round he (hA.add _ _)
  have h3 := (h2.mul (Err.rfl' (y := (1 / 2 : ℝ)) (B := 1 / 2) (by norm_num))).round he
    (z := A.div (A.add |TreeFl.exercise A S K u' d' (zOf isCall) i j|
        (TreeFl.exercise A S K u' d' (zOf isCall) i j)) 2)
    (by have := hA.div (A.add |TreeFl.exercise A S K u' d' (zOf isCall) i j|
          (TreeFl.exercise A S K u' d' (zOf isCall) i j)) 2
        rwa [div_eq_mul_one_div (A.add _ _)] at this)
  rw [payoff_eq, ← absmax, ← z_intrinsic]
  rw [div_eq_mul_one_div]
  convert h3 using 1
  · push_cast; ring
  · ring

theorem cont_err {p p' Df Df' hi hi' lo lo' c g Θ B₁ B₀ : ℝ} (hp : Err c p' p p)
    (hq : Err c (1 - p') (1 - p) (1 - p)) (hD : Err g Df' Df Df) (hhi : Err Θ hi' hi B₁)
    (hlo : Err Θ lo' lo B₀) :
    Err (4 * log (1 + e) + c + g + Θ) (TreeFl.cont A Df' p' hi' lo')
      (Df * (p * hi + (1 - p) * lo)) (Df * (p * B₁ + (1 - p) * B₀)) := by
  have hL : 0 ≤ log (1 + e) := log_nonneg (by linarith)
  have h1 := (hp.mul hhi).round he (hA.mul _ _)
  have h2 := ((hq.round he (hA.sub 1 p')).mul hlo).round he (hA.mul _ _)
  have h3 := ((h1.mono (θ' := c + log (1 + e) + Θ + log (1 + e)) (by linarith)).add h2).round he
    (hA.add _ _)
  have h4 := (h3.mul hD).round he (hA.mul _ _)
  rw [mul_comm Df, mul_comm Df]
  exact h4.mono (le_of_eq (by ring))

omit hA he in
theorem node_succ_up (S u d : ℝ) {j k : ℕ} (hk : k ≤ j) :
    node S u d (j + 1) (k + 1) = node S u d j k * u ∧ node S u d (j + 1) k = node S u d j k * d := by
  unfold node
  rw [show j + 1 - (k + 1) = j - k by omega, show j + 1 - k = (j - k) + 1 by omega, pow_succ, pow_succ]
  constructor <;> ring

/-- The computed value of a binomial tree is close to the exact one. -/
theorem binomial_err {S K u d p Df u' d' p' Df' a c g M : ℝ} (hS : 0 ≤ S) (hK : 0 ≤ K)
    (hu : Err a u' u u) (hd : Err a d' d d) (hp : Err c p' p p) (hq : Err c (1 - p') (1 - p) (1 - p))
    (hD : Err g Df' Df Df) (ha : 0 ≤ a) (hc : 0 ≤ c) (hg : 0 ≤ g)
    (hM : 1 ≤ M) (hM1 : Df ≤ M) (hM2 : Df * (p * u + (1 - p) * d) ≤ M)
    (am isCall : Bool) (n : ℕ) :
    ∃ v' v, TreeFl.calcPrice A S K u' d' p' Df' (zOf isCall) n (typeOf am) = .ok v' ∧
      Tree.calcPrice S K u d p Df (zOf isCall) n (typeOf am) = .ok v ∧
      Err ((8 + 4 * n) * log (1 + e) + n * (a + c + g)) v' v (M ^ n * (S + K)) := by
  have hL : 0 ≤ log (1 + e) := log_nonneg (by linarith)
  have hu0 := hu.nonneg
  have hd0 := hd.nonneg
  have hp0 := hp.nonneg
  have hq0 := hq.nonneg
  have hD0 := hD.nonneg
  obtain ⟨V, hV⟩ := exists_val am isCall S K u d p Df n
  let T : ℕ → ℝ := fun k => A.div (A.add |TreeFl.exercise A S K u' d' (zOf isCall) k (n - k)|
        (TreeFl.exercise A S K u' d' (zOf isCall) k (n - k))) 2
  let G : ℕ → ℕ → ℝ → ℝ → ℝ := fun j k hi lo =>
    if am then max (TreeFl.exercise A S K u' d' (zOf isCall) k (absDiff k j)) (TreeFl.cont A Df' p' hi lo)
    else TreeFl.cont A Df' p' hi lo
  let W : ℕ → ℕ → ℝ := fun j k => bV G T n (n - j) k
  have hWn : ∀ k, W n k = T k := by intro k; simp [W, bV]
  have hWb : ∀ j < n, ∀ k, W j k = G j k (W (j + 1) (k + 1)) (W (j + 1) k) := by
    intro j hj k
    obtain ⟨m, hm⟩ : ∃ m, n - j = m + 1 := ⟨n - j - 1, by omega⟩
    have h1 : n - (j + 1) = m := by omega
    have h2 : n - (m + 1) = j := by omega
    simp only [W, hm, h1, h2, bV]
  have key : ∀ j ≤ n, ∀ k ≤ j, Err (8 * log (1 + e) + n * a + (n - j : ℕ) * (4 * log (1 + e) + c + g))
      (W j k) (V j k) (M ^ (n - j) * (node S u d j k + K)) := by
    refine level_induction (fun k hk => ?_) (fun j hj ih k hk => ?_)
    · rw [hWn, hV.terminal k hk]
      have h := terminal_err hA he hS hK hu hd ha isCall k (n - k)
      rw [show k + (n - k) = n by omega] at h
      simpa [node] using h
    · have hcont := cont_err hA he hp hq hD (ih (k + 1) (by omega)) (ih k (by omega))
      obtain ⟨e1, e2⟩ := node_succ_up S u d hk
      have hN : 0 ≤ node S u d j k := by unfold node; positivity
      have hpow : M ^ (n - j) = M ^ (n - (j + 1)) * M := by rw [← pow_succ]; congr 1; omega
      have hMp : 0 ≤ M ^ (n - (j + 1)) := by positivity
      have hB : Df * (p * (M ^ (n - (j + 1)) * (node S u d (j + 1) (k + 1) + K))
          + (1 - p) * (M ^ (n - (j + 1)) * (node S u d (j + 1) k + K)))
          ≤ M ^ (n - j) * (node S u d j k + K) := by
        rw [e1, e2, hpow]
        calc _ = M ^ (n - (j + 1)) * (node S u d j k * (Df * (p * u + (1 - p) * d)) + K * Df) := by ring
          _ ≤ M ^ (n - (j + 1)) * (node S u d j k * M + K * M) := by gcongr
          _ = _ := by ring
      have hth : 4 * log (1 + e) + c + g + (8 * log (1 + e) + n * a
          + (n - (j + 1) : ℕ) * (4 * log (1 + e) + c + g))
          = 8 * log (1 + e) + n * a + (n - j : ℕ) * (4 * log (1 + e) + c + g) := by
        rw [show n - j = (n - (j + 1)) + 1 by omega]; push_cast; ring
      rw [hth] at hcont
      have hc' := hcont.weaken (by positivity) hB
      rw [hWb j hj k, hV.back j hj k hk]
      cases am
      · simpa [G] using hc'
      · have hex := exercise_err hA he hS hK hu hd ha isCall k (j - k)
        rw [show k + (j - k) = j by omega, z_intrinsic] at hex
        have hex' := (hex.mono (θ' := 8 * log (1 + e) + n * a
            + (n - j : ℕ) * (4 * log (1 + e) + c + g)) (by
          have : (j : ℝ) * a ≤ n * a := by
            have : (j : ℝ) ≤ n := by exact_mod_cast hj.le
            gcongr
          have : 0 ≤ ((n - j : ℕ) : ℝ) * (4 * log (1 + e) + c + g) := by positivity
          linarith)).weaken (by positivity) (B' := M ^ (n - j) * (node S u d j k + K)) (by
            have h1 : (1 : ℝ) ≤ M ^ (n - j) := one_le_pow₀ hM
            change node S u d j k + K ≤ _
            nlinarith)
        have := hex'.max hc'
        rw [← absDiff_le hk] at this
        simpa [G, node, absDiff_le hk] using this
  refine ⟨W 0 0, V 0 0, ?_, hV.roll.calcPrice, ?_⟩
  · obtain ⟨ov, h1, h2⟩ := rollback_val (R := ℝ)
      (fun j i l => do
        let hi ← getI l (i + 1)
        let lo ← getI l i
        return G j i hi lo)
      (fun j => j + 1) W (n + 1) n ((List.range (n + 1)).map T) (by simp) (by intros; omega)
      (fun k hk => by simp [hk, hWn])
      (by
        intro q hq i hi l hl hk
        rw [getI_ok (hk (i + 1) (by omega) (by omega)), getI_ok (hk i (by omega) (by omega))]
        simp only [bind, Except.bind, pure, Except.pure]
        rw [hWb q hq i])
    have h3 : TreeFl.roll A S K u' d' p' Df' (zOf isCall) n (typeOf am) = .ok ov := by
      rw [← h1]
      cases am
      · simp only [TreeFl.roll, typeOf, Bool.false_eq_true, if_false, if_true, TreeFl.euro,
          TreeFl.terminal, G, bind_assoc, pure_bind, T]
      · simp only [TreeFl.roll, typeOf, if_true, if_false, TreeFl.amer, TreeFl.terminal, G,
          bind_assoc, pure_bind, T, show ("american" = "european") = False by decide]
    unfold TreeFl.calcPrice
    rw [h3]
    exact getI_ok (h2 0 (by omega))
  · have h := key 0 (by omega) 0 le_rfl
    have hn : node S u d 0 0 = S := by simp [node]
    rw [hn, Nat.sub_zero] at h
    exact h.mono (le_of_eq (by ring))

/-! ### Trinomial trees -/

theorem terminal3_err {S K u d u' d' a : ℝ} (hS : 0 ≤ S) (hK : 0 ≤ K) (hu : Err a u' u u)
    (hd : Err a d' d d) (ha : 0 ≤ a) (isCall : Bool) (i j : ℕ) :
    Err (6 * log (1 + e) + (i + j : ℕ) * a)
      (max 0 (TreeFl.exercise A S K u' d' (zOf isCall) i j))
      (payoff isCall (S * u ^ i * d ^ j) K) (S * u ^ i * d ^ j + K) := by
  have hL : 0 ≤ log (1 + e) := log_nonneg (by linarith)
  have h1 := exercise_err hA he hS hK hu hd ha isCall i j
  have hB := h1.nonneg
  rw [payoff_eq, ← z_intrinsic, max_comm _ (0 : ℝ)]
  exact ((Err.rfl' (y := 0) (by simpa using hB)).mono (by positivity)).max h1

theorem cont3_err {pu pm pd pu' pm' pd' Df Df' x2 x1 x0 y2 y1 y0 c g Θ B2 B1 B0 : ℝ}
    (hpu : Err c pu' pu pu) (hpm : Err c pm' pm pm) (hpd : Err c pd' pd pd) (hD : Err g Df' Df Df)
    (h2 : Err Θ x2 y2 B2) (h1 : Err Θ x1 y1 B1) (h0 : Err Θ x0 y0 B0) :
    Err (4 * log (1 + e) + c + g + Θ) (TreeFl.cont3 A Df' pu' pd' pm' x2 x1 x0)
      (Df * (pu * y2 + pm * y1 + pd * y0)) (Df * (pu * B2 + pm * B1 + pd * B0)) := by
  have hL : 0 ≤ log (1 + e) := log_nonneg (by linarith)
  have e2 := (hpu.mul h2).round he (hA.mul _ _)
  have e1 := (hpm.mul h1).round he (hA.mul _ _)
  have e0 := (hpd.mul h0).round he (hA.mul _ _)
  have e3 := (e2.add e1).round he (hA.add _ _)
  have e4 := (e3.add (e0.mono (by linarith))).round he (hA.add _ _)
  have e5 := (e4.mul hD).round he (hA.mul _ _)
  rw [mul_comm Df, mul_comm Df]
  exact e5.mono (le_of_eq (by ring))

omit hA he in
/-- Nodes of a recombining trinomial lattice. -/
theorem node3_succ {S u d : ℝ} (hud : u * d = 1) (j i : ℕ) :
    node3 S u d (j + 1) (i + 2) = node3 S u d j i * u ∧
    node3 S u d (j + 1) (i + 1) = node3 S u d j i ∧
    node3 S u d (j + 1) i = node3 S u d j i * d := by
  unfold node3
  refine ⟨?_, by rw [show i + 1 - (j + 1) = i - j by omega, show j + 1 - (i + 1) = j - i by omega], ?_⟩
  · rcases le_or_gt j i with h | h
    · rw [show i + 2 - (j + 1) = (i - j) + 1 by omega, show j + 1 - (i + 2) = 0 by omega,
        show j - i = 0 by omega]; ring
    · rw [show i + 2 - (j + 1) = 0 by omega, show i - j = 0 by omega,
        show j - i = (j + 1 - (i + 2)) + 1 by omega, pow_succ]
      linear_combination -S * d ^ (j + 1 - (i + 2)) * hud
  · rcases le_or_gt i j with h | h
    · rw [show i - (j + 1) = 0 by omega, show j + 1 - i = (j - i) + 1 by omega,
        show i - j = 0 by omega]; ring
    · rw [show j + 1 - i = 0 by omega, show j - i = 0 by omega,
        show i - j = (i - (j + 1)) + 1 by omega, pow_succ]
      linear_combination -S * u ^ (i - (j + 1)) * hud

/-- The computed value of a trinomial tree is close to the exact one. -/
theorem trinomial_err {S K u d pu pm pd Df u' d' pu' pm' pd' Df' a c g M : ℝ} (hS : 0 ≤ S) (hK : 0 ≤ K)
    (hud : u * d = 1) (hu : Err a u' u u) (hd : Err a d' d d) (hpu : Err c pu' pu pu)
    (hpm : Err c pm' pm pm) (hpd : Err c pd' pd pd)
    (hD : Err g Df' Df Df) (ha : 0 ≤ a) (hc : 0 ≤ c) (hg : 0 ≤ g)
    (hM : 1 ≤ M) (hM1 : Df * (pu + pm + pd) ≤ M) (hM2 : Df * (pu * u + pm + pd * d) ≤ M)
    (am isCall : Bool) (n : ℕ) :
    ∃ v' v, TreeFl.calcPrice3 A S K u' d' pu' pd' pm' Df' (zOf isCall) n (typeOf am) = .ok v' ∧
      Tree.calcPrice3 S K u d pu pd pm Df (zOf isCall) n (typeOf am) = .ok v ∧
      Err ((6 + 4 * n) * log (1 + e) + n * (a + c + g)) v' v (M ^ n * (S + K)) := by
  have hL : 0 ≤ log (1 + e) := log_nonneg (by linarith)
  have hu0 := hu.nonneg
  have hd0 := hd.nonneg
  have hpu0 := hpu.nonneg
  have hpm0 := hpm.nonneg
  have hpd0 := hpd.nonneg
  have hD0 := hD.nonneg
  obtain ⟨V, hVt, hVb, hVp⟩ : ∃ V : ℕ → ℕ → ℝ,
      (∀ i ≤ 2 * n, V n i = payoff isCall (node3 S u d n i) K) ∧
      (∀ j < n, ∀ i ≤ 2 * j, V j i = if am then max (intrinsic isCall (node3 S u d j i) K)
          (Df * (pu * V (j + 1) (i + 2) + pm * V (j + 1) (i + 1) + pd * V (j + 1) i))
        else Df * (pu * V (j + 1) (i + 2) + pm * V (j + 1) (i + 1) + pd * V (j + 1) i)) ∧
      Tree.calcPrice3 S K u d pu pd pm Df (zOf isCall) n (typeOf am) = .ok (V 0 0) := by
    cases am
    · obtain ⟨V, hV⟩ := exists_european3 isCall S K u d pu pm pd Df n
      exact ⟨V, hV.terminal, by simpa using hV.back, (roll3_euro hV).calcPrice⟩
    · obtain ⟨V, hV⟩ := exists_american3 isCall S K u d pu pm pd Df n
      exact ⟨V, hV.terminal, by simpa using hV.back, (roll3_amer hV).calcPrice⟩
  let T : ℕ → ℝ := fun i => max 0 (TreeFl.exercise A S K u' d' (zOf isCall) (i - n) (2 * n - n - i))
  let G : ℕ → ℕ → ℝ → ℝ → ℝ → ℝ := fun j i x2 x1 x0 =>
    if am then max (TreeFl.exercise A S K u' d' (zOf isCall) (i - j) (j - i))
      (TreeFl.cont3 A Df' pu' pd' pm' x2 x1 x0)
    else TreeFl.cont3 A Df' pu' pd' pm' x2 x1 x0
  let W : ℕ → ℕ → ℝ := fun j k => tV G T n (n - j) k
  have hWn : ∀ k, W n k = T k := by intro k; simp [W, tV]
  have hWb : ∀ j < n, ∀ k, W j k = G j k (W (j + 1) (k + 2)) (W (j + 1) (k + 1)) (W (j + 1) k) := by
    intro j hj k
    obtain ⟨m, hm⟩ : ∃ m, n - j = m + 1 := ⟨n - j - 1, by omega⟩
    have h1 : n - (j + 1) = m := by omega
    have h2 : n - (m + 1) = j := by omega
    simp only [W, hm, h1, h2, tV]
  have key : ∀ j ≤ n, ∀ i ≤ 2 * j, Err (6 * log (1 + e) + n * a + (n - j : ℕ) * (4 * log (1 + e) + c + g))
      (W j i) (V j i) (M ^ (n - j) * (node3 S u d j i + K)) := by
    refine level_induction (fun i hi => ?_) (fun j hj ih i hi => ?_)
    · rw [hWn, hVt i hi]
      have h := terminal3_err hA he hS hK hu hd ha isCall (i - n) (2 * n - n - i)
      have h' := h.mono (θ' := 6 * log (1 + e) + n * a) (by
        have : ((i - n + (2 * n - n - i) : ℕ) : ℝ) ≤ n := by exact_mod_cast (by omega)
        gcongr)
      rw [show 2 * n - n - i = n - i by omega] at h'
      simpa [node3, T, show 2 * n - n - i = n - i by omega] using h'
    · have hcont := cont3_err hA he hpu hpm hpd hD (ih (i + 2) (by omega)) (ih (i + 1) (by omega))
        (ih i (by omega))
      obtain ⟨e1, e2, e3⟩ := node3_succ (S := S) hud j i
      have hN : 0 ≤ node3 S u d j i := by unfold node3; positivity
      have hpow : M ^ (n - j) = M ^ (n - (j + 1)) * M := by rw [← pow_succ]; congr 1; omega
      have hMp : 0 ≤ M ^ (n - (j + 1)) := by positivity
      have hB : Df * (pu * (M ^ (n - (j + 1)) * (node3 S u d (j + 1) (i + 2) + K))
          + pm * (M ^ (n - (j + 1)) * (node3 S u d (j + 1) (i + 1) + K))
          + pd * (M ^ (n - (j + 1)) * (node3 S u d (j + 1) i + K)))
          ≤ M ^ (n - j) * (node3 S u d j i + K) := by
        rw [e1, e2, e3, hpow]
        calc _ = M ^ (n - (j + 1)) * (node3 S u d j i * (Df * (pu * u + pm + pd * d))
              + K * (Df * (pu + pm + pd))) := by ring
          _ ≤ M ^ (n - (j + 1)) * (node3 S u d j i * M + K * M) := by gcongr
          _ = _ := by ring
      have hth : 4 * log (1 + e) + c + g + (6 * log (1 + e) + n * a
          + (n - (j + 1) : ℕ) * (4 * log (1 + e) + c + g))
          = 6 * log (1 + e) + n * a + (n - j : ℕ) * (4 * log (1 + e) + c + g) := by
        rw [show n - j = (n - (j + 1)) + 1 by omega]; push_cast; ring
      rw [hth] at hcont
      have hc' := hcont.weaken (by positivity) hB
      rw [hWb j hj i, hVb j hj i hi]
      cases am
      · simpa [G] using hc'
      · have hex := exercise_err hA he hS hK hu hd ha isCall (i - j) (j - i)
        rw [z_intrinsic] at hex
        have hex' := (hex.mono (θ' := 6 * log (1 + e) + n * a
            + (n - j : ℕ) * (4 * log (1 + e) + c + g)) (by
          have : ((i - j + (j - i) : ℕ) : ℝ) * a ≤ n * a := by
            have : ((i - j + (j - i) : ℕ) : ℝ) ≤ n := by exact_mod_cast (by omega)
            gcongr
          have : 0 ≤ ((n - j : ℕ) : ℝ) * (4 * log (1 + e) + c + g) := by positivity
          linarith)).weaken (by positivity) (B' := M ^ (n - j) * (node3 S u d j i + K)) (by
            have h1 : (1 : ℝ) ≤ M ^ (n - j) := one_le_pow₀ hM
            change node3 S u d j i + K ≤ _
            nlinarith)
        simpa [G, node3] using hex'.max hc'
  refine ⟨W 0 0, V 0 0, ?_, hVp, ?_⟩
  · obtain ⟨ov, h1, h2⟩ := rollback_val (R := ℝ)
      (fun j i l => TreeFl.cell3 A S K u' d' pu' pd' pm' Df' (zOf isCall) (typeOf am) j i l)
      (fun j => j * 2 + 1) W (2 * n + 1) n ((List.range (2 * n + 1)).map T) (by simp) (by intros; omega)
      (fun k hk => by simp [hWn, show k < 2 * n + 1 by omega])
      (by
        intro q hq i hi l hl hk
        rw [hWb q hq i]
        cases am
        · simp only [TreeFl.cell3, typeOf, Bool.false_eq_true, if_false, if_true, G]
          rw [getI_ok (hk (i + 2) (by omega) (by omega)), getI_ok (hk (i + 1) (by omega) (by omega)),
            getI_ok (hk i (by omega) (by omega))]
          rfl
        · simp only [TreeFl.cell3, typeOf, if_false, if_true, G,
            show ("american" = "european") = False by decide]
          rw [getI_ok (hk (i + 2) (by omega) (by omega)), getI_ok (hk (i + 1) (by omega) (by omega)),
            getI_ok (hk i (by omega) (by omega))]
          rfl)
    have h3 : TreeFl.roll3 A S K u' d' pu' pd' pm' Df' (zOf isCall) n (typeOf am) = .ok ov := by
      rw [← h1]; rfl
    unfold TreeFl.calcPrice3
    rw [h3]
    exact getI_ok (h2 0 (by omega))
  · have h := key 0 (by omega) 0 (by omega)
    have hn : node3 S u d 0 0 = S := by simp [node3]
    rw [hn, Nat.sub_zero] at h
    exact h.mono (le_of_eq (by ring))

end binomial

end Verif
