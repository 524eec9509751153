import Verif.Lemmas.GarchFl
import Verif.Props.Garch

/-!
# C125: the GARCH likelihood, simulation and fit when the parameters are not stationary

`Model/GarchFl` computes with `nan` and infinities. With stationary parameters it gives the numbers of `Model/HN`; with
parameters that are not stationary the likelihood is `nan` for every series.
-/
namespace Verif.Props
open Verif Verif.Fl Verif.Spec

/-- The value is a number. -/
def IsNum (x : Fl) : Prop := ∃ r, x = num r

/-- The transformation of the optimizer's numbers into the unit interval. -/
noncomputable def logistic (x : ℝ) : ℝ := 1 / (1 + Real.exp (-x))

theorem sigmoid_eq : HN.sigmoid = logistic := rfl

/-- **C125.** Stationary parameters (after the transformation of the optimizer's vector): likelihood, variances and
innovations are the numbers of the model on reals. -/
theorem C125_stationary {x0 : HN.Par} {symmetric : Bool} (rf : ℝ) {x : List ℝ} (hx : x ≠ [])
    (hs : logistic x0.beta + logistic x0.alpha * x0.gamma ^ 2 < 1) :
    ∃ (l : ℝ) (z h : List ℝ), HN.llh x0 symmetric rf x = .ok (l, z, h) ∧ (∀ v ∈ h, 0 < v) ∧
      GarchFl.llh (GarchFl.ofReal x0) symmetric rf x = .ok (num l, z.map num, h.map num) := by
  obtain ⟨h, z, e1, -, -, e4, e5⟩ := GarchFl.filter_num (p := HN.filterPar x0 symmetric) (HN.sigmoid_mem _).1
    (HN.sigmoid_mem _).1.le (HN.sigmoid_mem _).1.le (by rw [← sigmoid_eq] at hs; cases symmetric <;> simpa [HN.filterPar, HN.invert] using hs) rf hx
  refine ⟨-((z.zip h).map fun zh => Real.log (HN.pdf zh.1 / √zh.2)).sum, z, h, ?_, e4, ?_⟩
  · simp only [HN.llh, bind, Except.bind, pure, Except.pure, e1]
  · simp only [GarchFl.llh, bind, Except.bind, pure, Except.pure, GarchFl.filterPar_num, e5]
    rw [GarchFl.llh_sum h z e4, GarchFl.sum_num, num_neg]

theorem inno_pinf (x rf l : ℝ) : (num x - num rf - num l * pinf) / sqrt pinf = nan := by
  have h1 : ∀ y : Fl, y * num 0 = nan ∨ ∃ r, y = num r := fun y => by
    cases y
    · exact .inr ⟨_, rfl⟩
    · left; show signed 0 = nan; simp [signed]
    · left; show signed (-0) = nan; simp [signed]
    · left; rfl
  show (num x - num rf - num l * pinf) * num 0 = nan
  rcases h1 (num x - num rf - num l * pinf) with h | ⟨r, h⟩
  · exact h
  · exfalso
    have : num l * pinf = signed l := rfl
    rw [this, signed] at h
    split_ifs at h <;> cases h

/-- **C125.** Parameters that are not stationary: for every series the likelihood and all innovations are `nan`, and so
are the variances except the first, which is negative or infinite. -/
theorem C125_not_stationary {x0 : HN.Par} {symmetric : Bool} (rf : ℝ) {x : List ℝ} (hx : x ≠ [])
    (hs : 1 ≤ logistic x0.beta + logistic x0.alpha * x0.gamma ^ 2) :
    ∃ h0, GarchFl.llh (GarchFl.ofReal x0) symmetric rf x
        = .ok (nan, List.replicate x.length nan, h0 :: List.replicate (x.length - 1) nan) ∧
      (h0 = pinf ∨ ∃ v < 0, h0 = num v) := by
  rw [← sigmoid_eq] at hs
  set p := HN.filterPar x0 symmetric with hp
  have hb : p.beta = HN.sigmoid x0.beta := rfl
  have ha : p.alpha = HN.sigmoid x0.alpha := rfl
  have hg : p.gamma = x0.gamma := by cases symmetric <;> simp [hp, HN.filterPar, HN.invert]
  have hω := HN.sigmoid_mem x0.omega
  have hα := HN.sigmoid_mem x0.alpha
  have hd : 1 - p.alpha * p.gamma * p.gamma - p.beta ≤ 0 := by rw [hb, ha, hg]; nlinarith
  have hnum : 0 < p.omega + p.alpha := add_pos hω.1 hα.1
  have key : (GarchFl.first (GarchFl.ofReal p) = pinf ∨ ∃ v < 0, GarchFl.first (GarchFl.ofReal p) = num v) := by
    rcases hd.lt_or_eq with h | h
    · exact .inr ⟨_, div_neg_of_pos_of_neg hnum h, GarchFl.first_num h.ne⟩
    · left
      simp only [GarchFl.first, GarchFl.ofReal]
      rw [num_add, num_mul, num_mul, one_eq, num_sub, num_sub, h]
      show Fl.mul (num _) (Fl.inv (num 0)) = pinf
      simp [Fl.inv, Fl.mul, signed, hnum]
  refine ⟨_, GarchFl.llh_nan hx ?_, by rw [GarchFl.filterPar_num]; exact key⟩
  rw [GarchFl.filterPar_num]
  simp only [GarchFl.hz]
  rcases key with h | ⟨v, hv, h⟩
  · rw [h]; exact inno_pinf _ _ _
  · rw [h, sqrt_neg hv, div_nan]

/-- **C125.** The likelihood is a number if and only if the parameters are stationary. -/
theorem C125_number_iff (x0 : HN.Par) (symmetric : Bool) (rf : ℝ) {x : List ℝ} (hx : x ≠ []) :
    ∃ l z h, GarchFl.llh (GarchFl.ofReal x0) symmetric rf x = .ok (l, z, h) ∧
      (IsNum l ↔ logistic x0.beta + logistic x0.alpha * x0.gamma ^ 2 < 1) := by
  by_cases hs : logistic x0.beta + logistic x0.alpha * x0.gamma ^ 2 < 1
  · obtain ⟨l, z, h, -, -, e⟩ := C125_stationary (symmetric := symmetric) rf hx hs
    exact ⟨_, _, _, e, fun _ => hs, fun _ => ⟨l, rfl⟩⟩
  · obtain ⟨h0, e, -⟩ := C125_not_stationary (symmetric := symmetric) rf hx (not_lt.1 hs)
    exact ⟨_, _, _, e, fun ⟨r, hr⟩ => (by cases hr), fun h => absurd h hs⟩

/-- **C125.** Simulation with parameters that are not stationary: all points are `nan`, whatever the innovations, except
on the boundary, where the division raises. -/
theorem C125_sim {p : HN.Par} (hω : 0 < p.omega) (hα : 0 ≤ p.alpha) (hs : 1 ≤ p.beta + p.alpha * p.gamma ^ 2) (rf : ℝ)
    {n nStart : ℕ} {Z : List ℝ} (hZ : Z.length = nStart + n) (hn : 0 < nStart + n) :
    GarchFl.sim p rf n nStart Z = if p.beta + p.alpha * p.gamma ^ 2 = 1 then .error .zeroDivision
      else .ok (List.replicate n nan) := by
  split_ifs with h
  · have : 1 - p.alpha * p.gamma * p.gamma - p.beta = 0 := by linarith
    simp only [GarchFl.sim, bind, Except.bind, this, if_true]
    rfl
  · have hd : 1 - p.alpha * p.gamma * p.gamma - p.beta < 0 := by
      have : 1 < p.beta + p.alpha * p.gamma ^ 2 := lt_of_le_of_ne hs (Ne.symm h)
      nlinarith
    have h0 : sqrt (GarchFl.first (GarchFl.ofReal p)) = nan := by
      rw [GarchFl.first_num hd.ne]
      exact sqrt_neg (div_neg_of_pos_of_neg (by linarith) hd)
    rw [GarchFl.sim_tab hd.ne rf hZ hn, GarchFl.tab_congr (g := fun _ => nan) fun i _ => (GarchFl.hx_nan h0 i).2,
      GarchFl.tab, List.map_const', List.length_range, List.drop_replicate]
    congr 2; omega

/-- **C125.** Simulation with stationary parameters: the numbers of the model on reals. -/
theorem C125_sim_stationary {p : HN.Par} (hp : ValidSeries p) (rf : ℝ) {n : ℕ} {inno innoStart : List ℝ}
    (hi : inno.length = n) (hn : 0 < innoStart.length + n) (draw : ℕ → ℕ → List ℝ) :
    ∃ x : List ℝ, HN.sim p rf n innoStart.length (some inno) (some innoStart) draw = .ok x ∧ x.length = n ∧
      GarchFl.sim p rf n innoStart.length (innoStart ++ inno) = .ok (x.map num) := by
  have hd : 0 < 1 - p.alpha * p.gamma * p.gamma - p.beta := by nlinarith [hp.stationary]
  have hl : (innoStart ++ inno).length = innoStart.length + n := by simp [hi]
  have e := HN.simRun_eq p rf n innoStart.length (innoStart ++ inno)
  simp only at e
  rw [if_pos ⟨by omega, by omega⟩, hl, max_eq_right hn] at e
  refine ⟨_, (HN.sim_eq_run p rf n innoStart.length (some inno) (some innoStart) draw hd.ne').trans e, ?_, ?_⟩
  · simp
  · rw [GarchFl.sim_tab hd.ne' rf hl hn]
    have h := GarchFl.hx_num hp.omega hp.alpha hp.beta hp.stationary rf ((innoStart ++ inno).getD · 0)
    simp only [h]
    rw [GarchFl.tab_num, List.map_drop]
    congr 3
    exact HN.tab_congr fun i hi => (HN.mix_lt hi _ _).symm

/-! ### The default start of the fit -/

theorem logit_num {b : Bool} {x : ℝ} (h0 : 0 < x) (h1 : x < 1) : GarchFl.logit b x = .ok (num (HN.logit x)) := by
  rw [GarchFl.logit, if_neg (by rintro ⟨-, h⟩; linarith), one_eq, num_sub, num_div _ h0.ne',
    num_log (div_pos (by linarith) h0), num_neg, HN.logit]

theorem logit_nan {b : Bool} {x : ℝ} (h1 : 1 < x) : GarchFl.logit b x = .ok nan := by
  rw [GarchFl.logit, if_neg (by rintro ⟨-, h⟩; linarith), one_eq, num_sub, num_div _ (by linarith),
    log_neg (div_neg_of_neg_of_pos (by linarith) (by linarith)), neg_nan]

theorem logit_one {b : Bool} : GarchFl.logit b 1 = .ok pinf := by
  rw [GarchFl.logit, if_neg (by rintro ⟨-, h⟩; norm_num at h), one_eq, num_sub, num_div _ one_ne_zero, sub_self, zero_div,
    log_zero]
  rfl

theorem logit_zero : GarchFl.logit false 0 = .ok ninf := by
  rw [GarchFl.logit, if_neg (by simp), one_eq, num_sub, sub_zero]
  have : num 1 / num 0 = pinf := by
    show Fl.mul (num 1) (Fl.inv (num 0)) = pinf
    simp [Fl.inv, Fl.mul, signed]
  rw [this]
  rfl

theorem sigmoid_pinf : GarchFl.sigmoid pinf = num 1 := by
  rw [GarchFl.sigmoid]
  show (1 : Fl) / (1 + 0) = num 1
  rw [one_eq, zero_eq, num_add, num_div _ (by norm_num)]; norm_num

theorem sigmoid_ninf : GarchFl.sigmoid ninf = num 0 := by
  rw [GarchFl.sigmoid]
  show (1 : Fl) / (1 + pinf) = num 0
  rw [one_eq]
  show num 1 * num 0 = num 0
  rw [num_mul, mul_zero]

theorem sigmoid_nan : GarchFl.sigmoid nan = nan := by
  rw [GarchFl.sigmoid, neg_nan, exp_nan, add_nan, div_nan]

theorem var_nonneg (x : List ℝ) : 0 ≤ GarchFl.var x := by
  rw [GarchFl.var]
  refine div_nonneg (List.sum_nonneg ?_) (Nat.cast_nonneg _)
  intro v hv
  obtain ⟨w, -, rfl⟩ := List.mem_map.1 hv
  exact sq_nonneg _

/-- The likelihood at the default start (`omega` the sample variance, `alpha` a tenth of it). -/
noncomputable def startValue (x : List ℝ) (lamb beta gamma rf : ℝ) (symmetric : Bool) : Except PyErr Fl := do
  let s ← GarchFl.start x lamb none none beta gamma
  (GarchFl.llh s symmetric rf x).map (·.1)

theorem start_eq {x : List ℝ} {lamb beta gamma rf : ℝ} {symmetric : Bool} {po pa : Fl} (hβ : 0 < beta) (hβ1 : beta < 1)
    (h1 : GarchFl.logit false (GarchFl.var x) = .ok po) (h2 : GarchFl.logit false (0.1 * GarchFl.var x) = .ok pa) :
    startValue x lamb beta gamma rf symmetric
      = (GarchFl.llh ⟨num lamb, po, pa, num (HN.logit beta), num gamma⟩ symmetric rf x).map (·.1) := by
  simp [startValue, GarchFl.start, bind, Except.bind, pure, Except.pure, h1, h2, logit_num hβ hβ1]

/-- **C125.** The default start of `hngarch_fit` (any `lamb`, stationary `beta`, symmetric model): the likelihood there
is a number if and only if the sample variance of the series is positive and at most one. Full claim: it is a number
whenever the series is not constant. Missing, because false: series of larger variance, such as returns in per cent. -/
theorem C125_default_start_partial {x : List ℝ} (hx : x ≠ []) (lamb : ℝ) {beta : ℝ} (hβ : 0 < beta) (hβ1 : beta < 1)
    (rf : ℝ) (symmetric : Bool) :
    ∃ l, startValue x lamb beta 0 rf symmetric = .ok l ∧ (IsNum l ↔ 0 < GarchFl.var x ∧ GarchFl.var x ≤ 1) ∧
      (¬ IsNum l → l = nan) := by
  have hv0 := var_nonneg x
  have hnn : ¬ IsNum nan := fun ⟨r, hr⟩ => by cases hr
  have hnan : ∀ {x0 : GarchFl.Par}, (GarchFl.hz (GarchFl.filterPar x0 symmetric) (num rf) (fun i => num (x.getD i 0)) 0).2 = nan →
      (GarchFl.llh x0 symmetric rf x).map (·.1) = .ok nan := fun h => by
    rw [GarchFl.llh_nan hx h]; rfl
  rcases hv0.eq_or_lt with hv | hv
  · -- no variance
    have e2 : GarchFl.logit false (0.1 * GarchFl.var x) = .ok ninf := by rw [← hv, mul_zero, logit_zero]
    have e1 : GarchFl.logit false (GarchFl.var x) = .ok ninf := by rw [← hv, logit_zero]
    refine ⟨nan, ?_, ⟨fun h => absurd h hnn, fun h => absurd h.1 hv.not_lt⟩, fun _ => rfl⟩
    rw [start_eq hβ hβ1 e1 e2]
    have hL : 0 < x.length := List.length_pos_iff.2 hx
    simp only [GarchFl.llh, bind, Except.bind, pure, Except.pure]
    rw [GarchFl.map_num_tab, GarchFl.filter_tab _ _ _ hL]
    simp only [Except.map]
    congr 1
    rw [GarchFl.sum_nan, neg_nan]
    obtain ⟨m, hm⟩ : ∃ m, x.length = m + 1 := ⟨x.length - 1, by omega⟩
    rw [hm, GarchFl.tab, GarchFl.tab, List.range_succ_eq_map, List.map_cons, List.map_cons, List.zip_cons_cons,
      List.map_cons]
    refine List.mem_cons.2 (.inl ?_)
    set q := GarchFl.filterPar ⟨num lamb, ninf, ninf, num (HN.logit beta), num 0⟩ symmetric with hq
    have f1 : GarchFl.first q = num 0 := by
      have : q = GarchFl.ofReal ⟨lamb, 0, 0, beta, 0⟩ := by
        cases symmetric <;>
          simp [hq, GarchFl.filterPar, GarchFl.ofReal, sigmoid_ninf, GarchFl.sigmoid_num, HN.sigmoid_logit hβ hβ1, HN.invert]
      rw [this, GarchFl.first_num (by simp; linarith)]
      simp
    simp only [GarchFl.hz, f1, num_sqrt le_rfl, Real.sqrt_zero]
    have hz0 : ∀ y : ℝ, num y / num 0 = signed y := fun y => by
      show Fl.mul (num y) (Fl.inv (num 0)) = signed y
      simp [Fl.inv, Fl.mul]
    have ql : q.lamb = num lamb := rfl
    rw [ql, num_mul, num_sub, num_sub, hz0]
    have hp0 : ∀ w : Fl, w = pinf ∨ w = ninf ∨ w = nan → GarchFl.pdf w / num 0 = nan := fun w hw => by
      have hinf : GarchFl.pdf pinf = num 0 := by
        show Fl.mul (Fl.exp (-(Fl.npow pinf 2) / 2)) (Fl.inv (num _)) = num 0
        have : -(Fl.npow pinf 2) / 2 = ninf := by
          have e : Fl.npow pinf 2 = pinf := by
            show (1 : Fl) * pinf * pinf = pinf
            rw [one_eq]
            show Fl.mul (signed 1) pinf = pinf
            simp [signed, Fl.mul]
          rw [e, two_eq]
          show Fl.mul ninf (Fl.inv (num 2)) = ninf
          simp [Fl.inv, Fl.mul, signed]
        rw [this]
        have hpi : Real.sqrt (2 * Real.pi) ≠ 0 := (Real.sqrt_pos.2 (by positivity)).ne'
        show (0 : Fl) / num (Real.sqrt (2 * Real.pi)) = num 0
        rw [zero_eq, num_div _ hpi, zero_div]
      have hinf' : GarchFl.pdf ninf = num 0 := by
        have e : (ninf : Fl) ^ 2 = (pinf : Fl) ^ 2 := by
          show (1 : Fl) * ninf * ninf = (1 : Fl) * pinf * pinf
          rw [one_eq]
          show Fl.mul (signed (-1)) ninf = Fl.mul (signed 1) pinf
          norm_num [signed, Fl.mul]
        rw [GarchFl.pdf, e, ← GarchFl.pdf, hinf]
      rcases hw with rfl | rfl | rfl
      · rw [hinf, hz0]; simp [signed]
      · rw [hinf', hz0]; simp [signed]
      · rw [GarchFl.pdf_nan, nan_div]
    rw [hp0 _ (by unfold signed; split_ifs <;> simp), log_nan]
  rcases lt_or_ge 1 (GarchFl.var x) with h1 | h1
  · -- variance above one
    obtain ⟨pa, e2⟩ : ∃ pa, GarchFl.logit false (0.1 * GarchFl.var x) = .ok pa := by
      simp [GarchFl.logit]
    refine ⟨nan, ?_, ⟨fun h => absurd h hnn, fun h => absurd h.2 (not_le.2 h1)⟩, fun _ => rfl⟩
    rw [start_eq hβ hβ1 (logit_nan h1) e2, hnan]
    simp only [GarchFl.hz]
    have : GarchFl.first (GarchFl.filterPar ⟨num lamb, nan, pa, num (HN.logit beta), num 0⟩ symmetric) = nan := by
      simp only [GarchFl.first, GarchFl.filterPar, sigmoid_nan]
      rw [nan_add, nan_div]
    rw [this, sqrt_nan, div_nan]
  · -- a number
    have e2 : GarchFl.logit false (0.1 * GarchFl.var x) = .ok (num (HN.logit (0.1 * GarchFl.var x))) :=
      logit_num (by positivity) (by linarith)
    have e1 : ∃ po, GarchFl.logit false (GarchFl.var x) = .ok po ∧ GarchFl.sigmoid po = num (GarchFl.var x) := by
      rcases h1.lt_or_eq with h | h
      · exact ⟨_, logit_num hv h, by rw [GarchFl.sigmoid_num, HN.sigmoid_logit hv h]⟩
      · exact ⟨_, by rw [h, logit_one], by rw [sigmoid_pinf, h]⟩
    obtain ⟨po, e1, e3⟩ := e1
    have hq : GarchFl.filterPar ⟨num lamb, po, num (HN.logit (0.1 * GarchFl.var x)), num (HN.logit beta), num 0⟩ symmetric
        = GarchFl.ofReal ⟨lamb, GarchFl.var x, 0.1 * GarchFl.var x, beta, 0⟩ := by
      have h3 := HN.sigmoid_logit (x := 0.1 * GarchFl.var x) (by positivity) (by linarith)
      cases symmetric <;>
        simp [GarchFl.filterPar, GarchFl.ofReal, e3, GarchFl.sigmoid_num, HN.sigmoid_logit hβ hβ1, h3, HN.invert]
    obtain ⟨h, z, -, -, -, e4, e5⟩ := GarchFl.filter_num (p := ⟨lamb, GarchFl.var x, 0.1 * GarchFl.var x, beta, 0⟩) hv
      (by simp only; positivity) hβ.le (by simpa using hβ1) rf hx
    refine ⟨num (-((z.zip h).map fun zh => Real.log (HN.pdf zh.1 / √zh.2)).sum), ?_, ⟨fun _ => ⟨hv, h1⟩, fun _ => ⟨_, rfl⟩⟩,
      fun h => absurd ⟨_, rfl⟩ h⟩
    rw [start_eq hβ hβ1 e1 e2]
    simp only [GarchFl.llh, bind, Except.bind, pure, Except.pure, hq, e5, Except.map]
    rw [GarchFl.llh_sum h z e4, GarchFl.sum_num, num_neg]

/-- **C125 fails** for a series that is not constant: returns `0, 4` (per cent) give `nan` at the default start. -/
theorem C125_default_start_fails (lamb rf : ℝ) (symmetric : Bool) : startValue [0, 4] lamb (1 / 10) 0 rf symmetric = .ok nan := by
  obtain ⟨l, h1, h2, h3⟩ := C125_default_start_partial (x := [0, 4]) (by simp) lamb (beta := 1 / 10) (by norm_num)
    (by norm_num) rf symmetric
  rw [h1, h3]
  rw [h2]
  norm_num [GarchFl.var]

/-- Non-vacuous: returns `0, 1/10` give a number. -/
theorem C125_default_start_example : ∃ r, startValue [0, 1 / 10] (-1 / 2) (1 / 10) 0 0 true = .ok (num r) := by
  obtain ⟨l, h1, h2, -⟩ := C125_default_start_partial (x := [0, 1 / 10]) (by simp) (-1 / 2) (beta := 1 / 10) (by norm_num)
    (by norm_num) 0 true
  obtain ⟨r, rfl⟩ := h2.2 (by norm_num [GarchFl.var])
  exact ⟨r, h1⟩

/-! ### What the fit reports -/

/-- **C125**, what holds of the report: with `symmetric=False` and whatever finite vector the optimizer returns, the
variances reported are numbers if and only if the reported persistence is below one. Full claim: also with
`symmetric=True` (the default). Missing, because false: see `C125_report_fails`. -/
theorem C125_report_partial {minimize : (GarchFl.Par → Except PyErr Fl) → GarchFl.Par → Fl × GarchFl.Par} {x : List ℝ}
    (hx : x ≠ []) {lamb : ℝ} {omega alpha : Option ℝ} {beta gamma rf : ℝ} {f : GarchFl.Fit}
    (hf : GarchFl.fit minimize x lamb omega alpha beta gamma rf false = .ok f)
    (hfin : ∀ g s, ∃ q : HN.Par, (minimize g s).2 = GarchFl.ofReal q) :
    ∃ c : ℝ, f.persistence = num c ∧ ((∀ v ∈ f.h ++ f.z, IsNum v) ↔ c < 1) := by
  simp only [GarchFl.fit, bind, Except.bind, pure, Except.pure] at hf
  split at hf
  · cases hf
  rename_i s _
  split at hf
  · cases hf
  obtain ⟨q, hq⟩ := hfin (fun q => (GarchFl.llh q false rf x).map (·.1)) s
  rw [hq] at hf
  by_cases hs : logistic q.beta + logistic q.alpha * q.gamma ^ 2 < 1
  · obtain ⟨l, z, h, -, -, e⟩ := C125_stationary (symmetric := false) rf hx hs
    rw [e] at hf
    simp only [Except.ok.injEq] at hf
    subst hf
    refine ⟨logistic q.beta + logistic q.alpha * q.gamma * q.gamma, ?_, ?_⟩
    · simp [GarchFl.ofReal, GarchFl.sigmoid_num, sigmoid_eq, num_mul, num_add]
    · refine ⟨fun _ => by nlinarith, fun _ v hv => ?_⟩
      simp only [List.mem_append, List.mem_map] at hv
      rcases hv with ⟨r, -, rfl⟩ | ⟨r, -, rfl⟩ <;> exact ⟨_, rfl⟩
  · obtain ⟨h0, e, -⟩ := C125_not_stationary (symmetric := false) rf hx (not_lt.1 hs)
    rw [e] at hf
    simp only [Except.ok.injEq] at hf
    subst hf
    refine ⟨logistic q.beta + logistic q.alpha * q.gamma * q.gamma, ?_, ?_⟩
    · simp [GarchFl.ofReal, GarchFl.sigmoid_num, sigmoid_eq, num_mul, num_add]
    · refine ⟨fun h => ?_, fun h => absurd (by nlinarith) hs⟩
      have hL : 0 < x.length := List.length_pos_iff.2 hx
      obtain ⟨r, hr⟩ := h nan (List.mem_append.2 (.inr (List.mem_replicate.2 ⟨hL.ne', rfl⟩)))
      cases hr

/-- **C125 fails** for the report with `symmetric=True`: an optimizer that ends at `alpha = beta = 1/2, gamma = 2` makes
the fit report a persistence of `1/2` and a positive stationary variance, next to innovations that are all `nan`. -/
theorem C125_report_fails : ∃ (minimize : (GarchFl.Par → Except PyErr Fl) → GarchFl.Par → Fl × GarchFl.Par)
    (f : GarchFl.Fit), GarchFl.fit minimize [0, 1 / 10] (-1 / 2) none none (1 / 10) 0 0 true = .ok f ∧
      f.persistence = num (1 / 2) ∧ f.sigma2 = num 2 ∧ f.z = [nan, nan] := by
  have hx : ([0, 1 / 10] : List ℝ) ≠ [] := by simp
  have s0 : HN.sigmoid 0 = 1 / 2 := by norm_num [HN.sigmoid]
  obtain ⟨h0, e, -⟩ := C125_not_stationary (x0 := ⟨0, 0, 0, 0, 2⟩) (symmetric := true) 0 hx (by rw [← sigmoid_eq, s0]; norm_num)
  obtain ⟨r, hr⟩ := C125_default_start_example
  simp only [startValue, bind, Except.bind] at hr
  refine ⟨fun _ _ => (num 0, GarchFl.ofReal ⟨0, 0, 0, 0, 2⟩), ?_⟩
  simp only [GarchFl.fit, bind, Except.bind, pure, Except.pure]
  split at hr
  · cases hr
  rename_i s hs
  rcases hl : GarchFl.llh s true 0 [0, 1 / 10] with er | v
  · rw [hl] at hr; cases hr
  · simp only [e]
    refine ⟨_, rfl, ?_, ?_, rfl⟩
    · simp [GarchFl.ofReal, GarchFl.sigmoid_num, s0, zero_eq, num_mul, num_add]
    · simp only [GarchFl.ofReal, GarchFl.sigmoid_num, s0, if_true, zero_eq, num_mul, num_add, one_eq, num_sub]
      rw [num_div _ (by norm_num)]; norm_num

end Verif.Props
