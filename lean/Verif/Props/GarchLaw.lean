import Verif.Props.Garch
import Verif.Lemmas.GarchLaw

/-!
C66: the objective minimised by `hngarch_fit` is minus the logarithm of the density of the series that
`hngarch_sim` produces.
-/
namespace Verif.Props
open Verif Verif.Spec Verif.HN Real MeasureTheory ProbabilityTheory

theorem ofFn_getD {n : ℕ} (z : Fin n → ℝ) {i : ℕ} (hi : i < n) : (List.ofFn z).getD i 0 = z ⟨i, hi⟩ := by
  simp [List.getD, hi]

theorem tab_eq_ofFn (n : ℕ) (f : ℕ → ℝ) : tab n f = List.ofFn (fun i : Fin n => f i) := by
  apply List.ext_getElem?
  intro i
  rw [getElem?_tab, List.getElem?_ofFn]
  by_cases h : i < n <;> simp [h]

theorem exp_sum_log (n : ℕ) (f : ℕ → ℝ) (hf : ∀ i < n, 0 < f i) :
    exp (((List.range n).map fun i => log (f i)).sum) = ((List.range n).map f).prod := by
  induction n with
  | zero => simp
  | succ n ih =>
    rw [List.range_succ, List.map_append, List.map_append, List.sum_append, List.prod_append, exp_add,
      ih fun i hi => hf i (by omega)]
    simp [exp_log (hf n (by omega))]

/-- **C66.** For every parameter vector whose transformed parameters are stationary and every length `n ≥ 1`: feed
`hngarch_sim` with `n` independent standard normal innovations; the joint law of the `n` returned points has the
density `exp(-llh)`, where `llh` is the function minimised by `hngarch_fit`. -/
theorem C66_density {x0 : HN.Par} {symmetric : Bool} (hp : ValidSeries (filterPar x0 symmetric)) (rf : ℝ) {n : ℕ}
    (hn : 0 < n) (draw : ℕ → ℕ → List ℝ) :
    ∃ (X : (Fin n → ℝ) → (Fin n → ℝ)) (L : (Fin n → ℝ) → ℝ),
      (∀ z, sim (filterPar x0 symmetric) rf n 0 (some (List.ofFn z)) none draw = .ok (List.ofFn (X z))) ∧
      (∀ x, (llh x0 symmetric rf (List.ofFn x)).map (·.1) = .ok (L x)) ∧
      (stdNormal n).map X = volume.withDensity fun x => ENNReal.ofReal (exp (-L x)) := by
  set p := filterPar x0 symmetric with hpd
  set σ := hnVariance p.omega p.alpha p.beta p.gamma with hσ
  refine ⟨series p.lamb p.omega p.alpha p.beta p.gamma rf n σ, fun x => -((List.range n).map fun i => log (gaussianPDFReal
      (rf + x0.lamb * FH p rf σ ((List.ofFn x).getD · 0) i) (FH p rf σ ((List.ofFn x).getD · 0) i).toNNReal
      ((List.ofFn x).getD i 0))).sum, ?_, ?_, ?_⟩
  · intro z
    have hZ : (innovations n (some (List.ofFn z)) draw).length = n := by simp [innovations]
    rw [sim_zero hp rf hn _ draw hZ, tab_eq_ofFn]
    congr 2
    funext i
    have hzz : z = fun i : Fin n => ((innovations n (some (List.ofFn z)) draw).getD · 0) (i : ℕ) := by
      funext j
      exact (ofFn_getD z j.2).symm
    conv_rhs => rw [hzz]
    rw [series_apply _ _ _ _ _ _ n σ ((innovations n (some (List.ofFn z)) draw).getD · 0) i]
  · intro x
    have hL : 0 < (List.ofFn x).length := by simpa using hn
    have h := llh_eq hp rf hL
    simp only [List.length_ofFn] at h
    rw [h]
    rfl
  · rw [map_series _ _ _ _ _ _ hp.omega hp.alpha hp.beta n hp.le_variance]
    congr 1
    funext x
    congr 1
    have hxx : x = fun i : Fin n => ((List.ofFn x).getD · 0) (i : ℕ) := by
      funext j
      exact (ofFn_getD x j.2).symm
    conv_lhs => rw [hxx]
    rw [dens_eq _ _ _ _ _ _ n _ ((List.ofFn x).getD · 0)]
    simp only [neg_neg]
    rw [exp_sum_log]
    · rfl
    · intro i _
      refine gaussianPDFReal_pos _ _ _ ?_
      have hpos : 0 < FH p rf σ ((List.ofFn x).getD · 0) i :=
        hp.omega.trans_le (le_hnFilt hp.omega.le hp.alpha hp.beta hp.le_variance _ i)
      simpa using hpos

/-- Non-vacuous: the hypotheses of `C66_density` hold for transformed parameters `0, 0, 0` with `gamma = 1/2` (so
`omega = alpha = beta = 1/2`) and ten observations. -/
theorem C66_example (rf : ℝ) (draw : ℕ → ℕ → List ℝ) :
    ∃ (X : (Fin 10 → ℝ) → (Fin 10 → ℝ)) (L : (Fin 10 → ℝ) → ℝ),
      (∀ z, sim (filterPar ⟨0, 0, 0, 0, 1 / 2⟩ true) rf 10 0 (some (List.ofFn z)) none draw = .ok (List.ofFn (X z))) ∧
      (∀ x, (llh ⟨0, 0, 0, 0, 1 / 2⟩ true rf (List.ofFn x)).map (·.1) = .ok (L x)) ∧
      (stdNormal 10).map X = volume.withDensity fun x => ENNReal.ofReal (exp (-L x)) := by
  have h2 : sigmoid 0 = 1 / 2 := by simp [sigmoid]; norm_num
  refine C66_density ?_ rf (by norm_num) draw
  constructor <;> simp only [filterPar, h2] <;> norm_num [invert]

end Verif.Props
