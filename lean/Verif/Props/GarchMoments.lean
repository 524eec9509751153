import Verif.Props.GarchLaw
import Verif.Lemmas.GarchMoments
import Mathlib.Probability.Moments.Covariance

/-!
C86: mean, variance and autocovariance of the series that `hngarch_sim` produces, and what `persistence` and `sigma2`
of `hngarch_fit` say about it.
-/
namespace Verif.Props
open Verif Verif.Spec Verif.HN Real MeasureTheory ProbabilityTheory

/-- Variance of the conditional variance of day `d`, for a series started at its stationary variance `s` with
persistence `ρ`. -/
noncomputable def varOfVar (α γ s ρ : ℝ) (d : ℕ) : ℝ :=
  α ^ 2 * (2 + 4 * γ ^ 2 * s) * ((1 - ρ ^ (2 * d)) / (1 - ρ ^ 2))

theorem ofFn_append_getD {m n : ℕ} (w : Fin (m + n) → ℝ) (i : ℕ) :
    (List.ofFn (fun i : Fin m => w (Fin.castAdd n i)) ++ List.ofFn (fun i : Fin n => w (Fin.natAdd m i))).getD i 0
      = pad w i := by
  have h : List.ofFn (fun i : Fin m => w (Fin.castAdd n i)) ++ List.ofFn (fun i : Fin n => w (Fin.natAdd m i))
      = List.ofFn w := by
    rw [← List.ofFn_fin_append]
    congr 1
    exact Fin.append_castAdd_natAdd
  rw [h, pad]
  split
  · rw [ofFn_getD w ‹_›]
  · simp [List.getD, ‹¬ _›]

/-- The simulated points as functions of the innovations. -/
theorem sim_points {p : HN.Par} (hp : ValidSeries p) (rf : ℝ) {m n : ℕ} (hn : 0 < m + n) (draw : ℕ → ℕ → List ℝ)
    (w : Fin (m + n) → ℝ) :
    sim p rf n m (some (List.ofFn fun i => w (Fin.natAdd m i))) (some (List.ofFn fun i => w (Fin.castAdd n i))) draw
      = .ok (List.ofFn fun i : Fin n => rf + p.lamb * hnVariance p.omega p.alpha p.beta p.gamma
        + HN.ret p.omega p.alpha p.beta p.gamma (hnVariance p.omega p.alpha p.beta p.gamma) p.lamb (m + i) w) := by
  obtain ⟨x, h, hs, hl, -, h0, hnext, hx, hobs⟩ := C52_sim hp rf (n := n) (inno := List.ofFn fun i => w (Fin.natAdd m i))
    (innoStart := List.ofFn fun i => w (Fin.castAdd n i)) (by simpa using hn) (by simp) draw
  simp only [List.length_ofFn, ofFn_append_getD] at hs hl hnext hobs
  rw [hs]
  have hh : ∀ j < m + n, h.getD j 0 = hnVar p.omega p.alpha p.beta p.gamma
      (hnVariance p.omega p.alpha p.beta p.gamma) (pad w) j := by
    intro j
    induction j with
    | zero => intro _; exact h0
    | succ j ih => intro hj; rw [hnext j hj, ih (by omega), hnVar]
  congr 1
  apply List.ext_getElem (by simpa using hx)
  intro i h1 h2
  have hi : i < n := by rw [← hx]; exact h1
  have := hobs i hi
  rw [hh _ (by omega), show x.getD i 0 = x[i] by simp [List.getD, h1]] at this
  rw [this, List.getElem_ofFn]
  simp only [hnObs, HN.ret, dev]
  ring

/-- **C86.** For all stationary parameters, warm-up lengths `m` and series lengths `n`: feed `hngarch_sim` with `m + n`
independent standard normal innovations. Every returned point has mean `rf + lambda sigma2`, where `sigma2` is the
stationary variance; its variance is `sigma2` plus `lambda²` times the variance of the conditional variance; the
covariance of two points decays by the factor `persistence = beta + alpha gamma²` per day. -/
theorem C86_moments {p : HN.Par} (hp : ValidSeries p) (rf : ℝ) {m n : ℕ} (hn : 0 < m + n) (draw : ℕ → ℕ → List ℝ) :
    ∃ X : (Fin (m + n) → ℝ) → Fin n → ℝ,
      (∀ w, sim p rf n m (some (List.ofFn fun i => w (Fin.natAdd m i))) (some (List.ofFn fun i => w (Fin.castAdd n i)))
        draw = .ok (List.ofFn (X w))) ∧
      (∀ i, MemLp (fun w => X w i) 2 (stdNormal (m + n))) ∧
      (∀ i, ∫ w, X w i ∂stdNormal (m + n) = rf + p.lamb * hnVariance p.omega p.alpha p.beta p.gamma) ∧
      (∀ i, Var[fun w => X w i; stdNormal (m + n)] = hnVariance p.omega p.alpha p.beta p.gamma
        + p.lamb ^ 2 * varOfVar p.alpha p.gamma (hnVariance p.omega p.alpha p.beta p.gamma)
          (p.beta + p.alpha * p.gamma ^ 2) (m + i)) ∧
      ∀ i j, i < j → cov[fun w => X w i, fun w => X w j; stdNormal (m + n)]
        = (p.beta + p.alpha * p.gamma ^ 2) ^ ((j : ℕ) - i - 1) * (p.lamb ^ 2 * (p.beta + p.alpha * p.gamma ^ 2)
          * varOfVar p.alpha p.gamma (hnVariance p.omega p.alpha p.beta p.gamma) (p.beta + p.alpha * p.gamma ^ 2) (m + i)
          - 2 * p.lamb * p.alpha * p.gamma * hnVariance p.omega p.alpha p.beta p.gamma) := by
  set s := hnVariance p.omega p.alpha p.beta p.gamma with hsd
  set ρ := p.beta + p.alpha * p.gamma ^ 2 with hρ
  have hρ1 : ρ < 1 := hp.stationary
  have hs0 : 0 ≤ s := hp.omega.le.trans hp.le_variance
  have hs : p.omega + p.alpha = s * (1 - ρ) := by
    rw [hsd, hnVariance, hρ, show 1 - (p.beta + p.alpha * p.gamma ^ 2) = 1 - p.beta - p.alpha * p.gamma ^ 2 by ring,
      div_mul_cancel₀]
    have : 0 < 1 - p.beta - p.alpha * p.gamma ^ 2 := by rw [hρ] at hρ1; linarith
    exact this.ne'
  have mom := fun k : Fin (m + n) => ret_moments hp.omega.le hp.alpha hp.beta hs0 hρ hs hρ1 (n := m + n) p.lamb k
  have cv := fun i j : Fin (m + n) => ret_cov hp.omega.le hp.alpha hp.beta hs0 hρ hs hρ1 (n := m + n) p.lamb i j
  have mean : ∀ i : Fin n, ∫ w, (rf + p.lamb * s + HN.ret p.omega p.alpha p.beta p.gamma s p.lamb (m + i) w)
      ∂stdNormal (m + n) = rf + p.lamb * s := by
    intro i
    obtain ⟨h1, h2, h3⟩ := mom (Fin.natAdd m i)
    simp only [Fin.val_natAdd] at h1 h2
    rw [integral_add (integrable_const _) (h1.integrable (by norm_num)), h2]
    simp
  have lp : ∀ i : Fin n, MemLp (fun w => rf + p.lamb * s + HN.ret p.omega p.alpha p.beta p.gamma s p.lamb (m + i) w) 2
      (stdNormal (m + n)) := by
    intro i
    obtain ⟨h1, -, -⟩ := mom (Fin.natAdd m i)
    simp only [Fin.val_natAdd] at h1
    have h2 : MemLp (fun _ : Fin (m + n) → ℝ => rf + p.lamb * s) 2 (stdNormal (m + n)) := memLp_const _
    exact h2.add h1
  refine ⟨fun w i => rf + p.lamb * s + HN.ret p.omega p.alpha p.beta p.gamma s p.lamb (m + i) w,
    fun w => sim_points hp rf hn draw w, lp, mean, ?_, ?_⟩
  · intro i
    obtain ⟨-, -, h3⟩ := mom (Fin.natAdd m i)
    simp only [Fin.val_natAdd] at h3
    rw [variance_eq_integral (lp i).aestronglyMeasurable.aemeasurable, mean i, varOfVar, ← h3]
    congr 1
    funext w
    ring
  · intro i j hij
    have h := cv (Fin.natAdd m i) (Fin.natAdd m j) (by simpa using hij)
    simp only [Fin.val_natAdd] at h
    rw [covariance, mean i, mean j]
    simp only [add_sub_cancel_left]
    rw [h, varOfVar]
    rw [show m + (j : ℕ) - (m + i) - 1 = j - i - 1 by omega]
    ring

/-- **C86.** Without risk premium (`lambda = 0`) the series is white noise around `rf` with exactly the
stationary variance, for every warm-up. -/
theorem C86_white_noise {p : HN.Par} (hp : ValidSeries p) (hl : p.lamb = 0) (rf : ℝ) {m n : ℕ} (hn : 0 < m + n)
    (draw : ℕ → ℕ → List ℝ) :
    ∃ X : (Fin (m + n) → ℝ) → Fin n → ℝ,
      (∀ w, sim p rf n m (some (List.ofFn fun i => w (Fin.natAdd m i))) (some (List.ofFn fun i => w (Fin.castAdd n i)))
        draw = .ok (List.ofFn (X w))) ∧
      (∀ i, ∫ w, X w i ∂stdNormal (m + n) = rf) ∧
      (∀ i, Var[fun w => X w i; stdNormal (m + n)] = hnVariance p.omega p.alpha p.beta p.gamma) ∧
      ∀ i j, i ≠ j → cov[fun w => X w i, fun w => X w j; stdNormal (m + n)] = 0 := by
  obtain ⟨X, h1, -, h3, h4, h5⟩ := C86_moments hp rf hn draw
  refine ⟨X, h1, fun i => by rw [h3, hl]; ring, fun i => by rw [h4, hl]; ring, fun i j hij => ?_⟩
  rcases lt_or_gt_of_ne hij with h | h
  · rw [h5 i j h, hl]; ring
  · rw [covariance_comm, h5 j i h, hl]; ring

/-- **C86.** Reading of a fit. Whenever the reported persistence is below one, the model reported by `hngarch_fit` is
stationary, and the series simulated from it has mean `rf' + lambda sigma2` and covariances as above with the reported
`sigma2` and `persistence`. -/
theorem C86_fit {minimize : (HN.Par → Except PyErr ℝ) → HN.Par → ℝ × HN.Par} {x : List ℝ} {lamb : ℝ}
    {omega alpha : Option ℝ} {beta gamma rf var : ℝ} {symmetric : Bool} {f : Fit}
    (hf : fit minimize x lamb omega alpha beta gamma rf var symmetric = .ok f) (h1 : f.persistence < 1) (rf' : ℝ)
    {m n : ℕ} (hn : 0 < m + n) (draw : ℕ → ℕ → List ℝ) :
    ∃ X : (Fin (m + n) → ℝ) → Fin n → ℝ,
      (∀ w, sim f.model rf' n m (some (List.ofFn fun i => w (Fin.natAdd m i)))
        (some (List.ofFn fun i => w (Fin.castAdd n i))) draw = .ok (List.ofFn (X w))) ∧
      (∀ i, ∫ w, X w i ∂stdNormal (m + n) = rf' + f.model.lamb * f.sigma2) ∧
      (∀ i, Var[fun w => X w i; stdNormal (m + n)] = f.sigma2
        + f.model.lamb ^ 2 * varOfVar f.model.alpha f.model.gamma f.sigma2 f.persistence (m + i)) ∧
      ∀ i j, i < j → cov[fun w => X w i, fun w => X w j; stdNormal (m + n)]
        = f.persistence ^ ((j : ℕ) - i - 1) * (f.model.lamb ^ 2 * f.persistence
          * varOfVar f.model.alpha f.model.gamma f.sigma2 f.persistence (m + i)
          - 2 * f.model.lamb * f.model.alpha * f.model.gamma * f.sigma2) := by
  obtain ⟨v, res, -, -, -, -, -, he, hm, hper, hsig⟩ := fit_ok hf
  have e1 : f.persistence = f.model.beta + f.model.alpha * f.model.gamma ^ 2 := by rw [hper, hm]; ring
  have e2 : f.sigma2 = hnVariance f.model.omega f.model.alpha f.model.beta f.model.gamma := by
    rw [hsig, hnVariance, e1, hm, sub_sub]
  have hp : ValidSeries f.model := by
    refine ⟨?_, ?_, ?_, by rw [← e1]; exact h1⟩
    · rw [hm, he]; exact (sigmoid_mem _).1
    · rw [hm, he]; exact (sigmoid_mem _).1.le
    · rw [hm, he]; exact (sigmoid_mem _).1.le
  rw [e2, e1]
  obtain ⟨X, g1, -, g3, g4, g5⟩ := C86_moments hp rf' hn draw
  exact ⟨X, g1, g3, g4, g5⟩

/-- The hypotheses are satisfiable: a stationary parameter set with risk premium, asymmetry and persistence `1/2`. -/
theorem C86_example : ValidSeries ⟨1, 1 / 4, 1 / 4, 1 / 4, 1⟩ ∧ hnVariance (1 / 4) (1 / 4) (1 / 4) 1 = 1 ∧
    varOfVar (1 / 4) 1 1 (1 / 4 + 1 / 4 * 1 ^ 2) 1 = 3 / 8 := by
  refine ⟨⟨by norm_num, by norm_num, by norm_num, by norm_num⟩, ?_, ?_⟩
  · norm_num [hnVariance]
  · norm_num [varOfVar]

end Verif.Props
