import Verif.Lemmas.AmericanCall
import Verif.Props.TreeRate
import Verif.Props.TreeOrder

/-!
C95: American tree prices converge to the value of the American option (`Spec.american`), for every class, with an
explicit bound on the distance for every number of steps.
-/
namespace Verif.Props
open Verif Verif.Spec Real MeasureTheory ProbabilityTheory Filter _root_.Verif.Tree
open scoped Topology

theorem Df_le_one {r t : ℝ} {n : ℕ} (hr : 0 ≤ r) (ht : 0 ≤ t) : exp (-r * (t / n)) ≤ 1 := by
  have : 0 ≤ t / n := by positivity
  rw [exp_le_one_iff]; nlinarith

/-- Distance of an American lattice put to the American value, from a bound on the error without exercise. -/
theorem lattice_american {S K t r b σ p u d x x' C : ℝ} (h : Valid S K t σ) (hr : 0 ≤ r) {n : ℕ} (hn : 0 < n)
    {V : ℕ → ℕ → ℝ} (hV : IsVal true false S K u d p (exp (-r * (t / n))) n V) (hu : u = exp x) (hd : d = exp x')
    (hp0 : 0 ≤ p) (hp1 : p ≤ 1) (hM : p * exp x + (1 - p) * exp x' ≤ exp (b * (t / n))) (hC : 0 ≤ C)
    (hE : ∀ f, Nice f → ∀ i ≤ n, ∀ y, |(opL (exp (-r * (t / n))) p x x')^[i] f y
      - (opBS r b σ (t / n))^[i] f y| ≤ σ * √(t / n) * C) :
    |V 0 0 - american false S K t r b σ|
      ≤ K * (2 * C * (σ * √t) / n ^ (1 / 4 : ℝ) + 2 * waiting r b (2 * t / n ^ (1 / 4 : ℝ))) := by
  have hσ := h.σ; have ht := h.t
  refine fourth_root_rate h.K.le h.t.le hr h.σ.le hC hn fun k hk hkn => ?_
  have hop := stepOp_L (x := x) (x' := x') (exp_pos (-r * (t / n))).le (Df_le_one hr h.t.le) hp0 hp1 le_rfl
  have e := lattice_dp hV h.S h.K hu hd hp0 hp1 (exp_pos _).le (Df_le_one hr h.t.le) 0 (by omega) 0 le_rfl
  simp only [Spec.node, pow_zero, mul_one, Nat.sub_zero] at e
  refine american_error h.S h.K h.t.le hr hn hk hp0 hp1 hM (by positivity) hE hkn ?_ e.le
  rw [e]
  exact mul_le_mul_of_nonneg_left (hop.dp_mono (ex' := every 1) (fun j _ => one_dvd j) _ _) h.K.le

/-- **C95** (`JRBinomialTreeOption`, puts). The American price with `n` steps is within
`K (9 σ√t n^{-1/4} + 2 w(2 t n^{-1/4}))` of the American value, `w(Δ) = e^{max(b-r,0)Δ} - e^{-rΔ}`. -/
theorem C95_jr_put {S K t σ : ℝ} (h : Valid S K t σ) {r : ℝ} (hr : 0 ≤ r) (b : ℝ) {n : ℕ} (hn : 0 < n) :
    ∃ x, price .jr ⟨S, K, t, r, b, σ, "american", n⟩ false = .ok x ∧
      |x - american false S K t r b σ|
        ≤ K * (9 * (σ * √t) / n ^ (1 / 4 : ℝ) + 2 * waiting r b (2 * t / n ^ (1 / 4 : ℝ))) := by
  let o : Opt := ⟨S, K, t, r, b, σ, "american", n⟩
  obtain ⟨V, hV⟩ := exists_val true false S K (factors .jr o).u (factors .jr o).d (factors .jr o).p
    (factors .jr o).Df n
  refine ⟨_, price_val (o := o) (am := true) hn.ne' rfl hV, ?_⟩
  have hM : (1 / 2 : ℝ) * exp ((b - σ ^ 2 / 2) * (t / n) + σ * √(t / n))
      + (1 - 1 / 2) * exp ((b - σ ^ 2 / 2) * (t / n) - σ * √(t / n)) ≤ exp (b * (t / n)) := by
    have hc := cosh_le_exp_half_sq (σ * √(t / n))
    have ht := h.t
    rw [mul_pow, sq_sqrt (by positivity)] at hc
    have := mul_le_mul_of_nonneg_left hc (exp_pos ((b - σ ^ 2 / 2) * (t / n))).le
    rw [← exp_add, cosh_eq] at this
    rw [sub_eq_add_neg ((b - σ ^ 2 / 2) * (t / n)), exp_add, exp_add]
    rw [show (b - σ ^ 2 / 2) * (t / n) + σ ^ 2 * (t / n) / 2 = b * (t / n) by ring] at this
    linarith
  have key := lattice_american h hr hn hV rfl rfl (by norm_num [factors, o]) (by norm_num [factors, o]) hM
    (C := 9 / 2) (by norm_num) (fun f hf i hi y => (jr_block h.t hr h.σ hn f hf i hi y).trans (le_of_eq (by ring)))
  convert key using 3
  ring

theorem crr_step {b t σ : ℝ} {n : ℕ} (hσ : 0 < σ) (hs : (|b| + σ ^ 2 / 2) / σ * √(t / n) ≤ 1) : |b| * √(t / n) ≤ σ := by
  rw [div_mul_eq_mul_div, div_le_one hσ] at hs
  have : 0 ≤ σ ^ 2 / 2 * √(t / n) := by positivity
  linarith

/-- The mean of a CRR step. -/
theorem crr_mean {o : Opt} (h : TreeValid o) :
    (factors .crr o).p * exp (o.sigma * √(o.t / o.n)) + (1 - (factors .crr o).p) * exp (-(o.sigma * √(o.t / o.n)))
      = exp (o.b * (o.t / o.n)) := by
  have g := good_crr h
  have hud : (factors .crr o).u - (factors .crr o).d ≠ 0 := (sub_pos.2 g.lt).ne'
  have e : (factors .crr o).p * (factors .crr o).u + (1 - (factors .crr o).p) * (factors .crr o).d
      = exp (o.b * (o.t / o.n)) := by
    rw [g.p]; field_simp; ring
  rw [crr_d] at e
  exact e

/-- **C95** (`CRRBinomialTreeOption`, puts). With `(|b| + σ²/2) √(t/n) ≤ σ` and `C = 15 + 31 θ√t (1 + σ√t)`,
`θ = (|b| + σ²/2)/σ`, the American price is within `K (2 C σ√t n^{-1/4} + 2 w(2 t n^{-1/4}))` of the American value. -/
theorem C95_crr_put {S K t σ : ℝ} (h : Valid S K t σ) {r : ℝ} (hr : 0 ≤ r) (b : ℝ) {n : ℕ} (hn : 0 < n)
    (hs : (|b| + σ ^ 2 / 2) / σ * √(t / n) ≤ 1) :
    ∃ x, price .crr ⟨S, K, t, r, b, σ, "american", n⟩ false = .ok x ∧
      |x - american false S K t r b σ|
        ≤ K * (2 * (15 + 31 * ((|b| + σ ^ 2 / 2) / σ * √t) * (1 + σ * √t)) * (σ * √t) / n ^ (1 / 4 : ℝ)
          + 2 * waiting r b (2 * t / n ^ (1 / 4 : ℝ))) := by
  let o : Opt := ⟨S, K, t, r, b, σ, "american", n⟩
  have hV' : TreeValid o := ⟨h.t, h.σ, hn⟩
  obtain ⟨p0, p1⟩ := crr_prob hV' (crr_step h.σ hs)
  obtain ⟨V, hV⟩ := exists_val true false S K (factors .crr o).u (factors .crr o).d (factors .crr o).p
    (factors .crr o).Df n
  refine ⟨_, price_val (o := o) (am := true) hn.ne' rfl hV, ?_⟩
  have hσ := h.σ
  have hp : (factors .crr o).p = (exp (b * (t / n)) - exp (-(σ * √(t / n))))
      / (exp (σ * √(t / n)) - exp (-(σ * √(t / n)))) := by
    rw [(good_crr hV').p, crr_d]; rfl
  exact lattice_american h hr hn hV rfl crr_d p0 p1 (crr_mean hV').le (by positivity)
    (crr_block h.t hr h.σ hn rfl hs hp p0 p1)

/-- **C95** (`CRRBinomialTreeOption`, calls), `b ≤ r`: the same with spot and strike exchanged. -/
theorem C95_crr_call {S K t σ : ℝ} (h : Valid S K t σ) {r b : ℝ} (hb : b ≤ r) {n : ℕ} (hn : 0 < n)
    (hs : (|b| + σ ^ 2 / 2) / σ * √(t / n) ≤ 1) :
    ∃ x, price .crr ⟨S, K, t, r, b, σ, "american", n⟩ true = .ok x ∧
      |x - american true S K t r b σ|
        ≤ S * (2 * (15 + 31 * ((|b| + σ ^ 2 / 2) / σ * √t) * (1 + σ * √t)) * (σ * √t) / n ^ (1 / 4 : ℝ)
          + 2 * waiting (r - b) (-b) (2 * t / n ^ (1 / 4 : ℝ))) := by
  obtain ⟨x, hx, hx'⟩ := C71_crr ⟨S, K, t, r, b, σ, "american", n⟩ ⟨h.t, h.σ, hn⟩ (Or.inr rfl) true
  obtain ⟨y, hy, hy'⟩ := C95_crr_put (S := K) (K := S) ⟨h.K, h.S, h.t, h.σ⟩ (sub_nonneg.2 hb) (-b) hn
    (by rwa [abs_neg])
  have hxy : x = y := by
    have := hx'.symm.trans hy
    injection this
  refine ⟨x, hx, ?_⟩
  rw [american_symmetry h.S h.K h.t.le, hxy]
  rwa [abs_neg] at hy'

/-- **C95** (`CRRBinomialTreeOption`, calls), `0 ≤ r ≤ b`: these are not exercised early, neither in the tree nor
in the specification, and the rate is that of C94. -/
theorem C95_crr_call_carry {S K t σ : ℝ} (h : Valid S K t σ) {r b : ℝ} (hr : 0 ≤ r) (hb : r ≤ b) {n : ℕ} (hn : 0 < n)
    (hs : (|b| + σ ^ 2 / 2) / σ * √(t / n) ≤ 1) :
    ∃ x, price .crr ⟨S, K, t, r, b, σ, "american", n⟩ true = .ok x ∧
      |x - american true S K t r b σ| ≤ K * exp (-r * t) * (σ * √(t / n))
        * (4 + 17 * ((|b| + σ ^ 2 / 2) / σ * √t) * (1 + σ * √t)) := by
  rw [american_call_european h.S.le h.K.le h.t.le hr hb]
  exact C94_american_call h hr hb hn hs

/-- **C95** (`TIANBinomialTreeOption`, puts), `σ² t/n ≤ 1/5`, `C = 94 + 279 σ√t + 18 σ²t`. -/
theorem C95_tian_put {S K t σ : ℝ} (h : Valid S K t σ) {r : ℝ} (hr : 0 ≤ r) (b : ℝ) {n : ℕ} (hn : 0 < n)
    (hs : σ ^ 2 * (t / n) ≤ 1 / 5) :
    ∃ x, price .tian ⟨S, K, t, r, b, σ, "american", n⟩ false = .ok x ∧
      |x - american false S K t r b σ|
        ≤ K * (2 * (94 + 279 * (σ * √t) + 18 * (σ * √t) ^ 2) * (σ * √t) / n ^ (1 / 4 : ℝ)
          + 2 * waiting r b (2 * t / n ^ (1 / 4 : ℝ))) := by
  let o : Opt := ⟨S, K, t, r, b, σ, "american", n⟩
  have hV' : TreeValid o := ⟨h.t, h.σ, hn⟩
  obtain ⟨p0, p1⟩ := tian_prob hV'
  obtain ⟨u0, d0⟩ := factors_pos .tian hV'
  obtain ⟨V, hV⟩ := exists_val true false S K (factors .tian o).u (factors .tian o).d (factors .tian o).p
    (factors .tian o).Df n
  refine ⟨_, price_val (o := o) (am := true) hn.ne' rfl hV, ?_⟩
  have hσ := h.σ
  have g := good_tian hV'
  have hM : (factors .tian o).p * exp (log (factors .tian o).u) + (1 - (factors .tian o).p)
      * exp (log (factors .tian o).d) = exp (b * (t / n)) := by
    rw [exp_log u0, exp_log d0]
    have hud : (factors .tian o).u - (factors .tian o).d ≠ 0 := (sub_pos.2 g.lt).ne'
    rw [g.p]; field_simp; ring
  exact lattice_american h hr hn hV (exp_log u0).symm (exp_log d0).symm p0.le p1.le hM.le (by positivity)
    (tian_block h.t hr h.σ hn hs rfl rfl rfl rfl rfl p0.le p1.le)

/-- **C95** (`TrinomialTreeOption`, puts). -/
theorem C95_trinomial_put {S K t σ : ℝ} (h : Valid S K t σ) {r : ℝ} (hr : 0 ≤ r) (b : ℝ) {n : ℕ} (hn : 0 < n)
    (hs : (|b| + σ ^ 2 / 2) / σ * √(t / (2 * n)) ≤ 1) :
    ∃ x, price3 ⟨S, K, t, r, b, σ, "american", n⟩ false = .ok x ∧
      |x - american false S K t r b σ|
        ≤ K * (2 * (15 + 31 * ((|b| + σ ^ 2 / 2) / σ * √t) * (1 + σ * √t)) * (σ * √t) / n ^ (1 / 4 : ℝ)
          + 2 * waiting r b (2 * t / n ^ (1 / 4 : ℝ))) := by
  let o : Opt := ⟨S, K, t, r, b, σ, "american", n⟩
  let o2 : Opt := { o with n := 2 * n }
  have hn2 : 0 < 2 * n := by omega
  have hn' : (0 : ℝ) < n := by exact_mod_cast hn
  have ht := h.t
  have hσ := h.σ
  have e2 : ((2 * n : ℕ) : ℝ) = 2 * n := by push_cast; ring
  rw [← e2] at hs
  have hV' : TreeValid o := ⟨h.t, h.σ, hn⟩
  have hV2 : TreeValid o2 := ⟨h.t, h.σ, hn2⟩
  obtain ⟨p0, p1⟩ := crr_prob hV2 (crr_step h.σ hs)
  obtain ⟨V, hV⟩ := exists_american3 false S K (factors3 o).u (factors3 o).d (factors3 o).pu (factors3 o).pm
    (factors3 o).pd (factors3 o).Df n
  refine ⟨_, price3_amer (o := o) hn rfl false hV, ?_⟩
  obtain ⟨f1, f2, f3, f4, f5, f6⟩ := factors3_eq hV'
  rw [f1, f2, f3, f4, f5, f6] at hV
  have hp : (factors .crr o2).p = (exp (b * (t / (2 * n : ℕ))) - exp (-(σ * √(t / (2 * n : ℕ)))))
      / (exp (σ * √(t / (2 * n : ℕ))) - exp (-(σ * √(t / (2 * n : ℕ))))) := by
    rw [(good_crr hV2).p, crr_d]; rfl
  have hD1 := Df_le_one (n := 2 * n) hr h.t.le
  have hop := stepOp_L (x := σ * √(t / (2 * n : ℕ))) (x' := -(σ * √(t / (2 * n : ℕ))))
    (exp_pos (-r * (t / (2 * n : ℕ)))).le hD1 p0 p1 le_rfl
  have e := lattice3_dp (x := σ * √(t / (2 * n : ℕ))) (q := (factors .crr o2).p)
    (D := exp (-r * (t / (2 * n : ℕ)))) hV h.S h.K p0 p1 (exp_pos _).le hD1 0 (by omega) 0 le_rfl
  simp only [Nat.sub_zero, CharP.cast_eq_zero, sub_zero, mul_zero, add_zero, mul_comm n 2] at e
  refine fourth_root_rate h.K.le h.t.le hr h.σ.le (by positivity) hn fun k hk hkn => ?_
  have key := american_error (S := S) (X := V 0 0) (k := 2 * k) h.S h.K h.t.le hr hn2 (by omega) p0 p1 (crr_mean hV2).le
    (by positivity) (crr_block h.t hr h.σ hn2 rfl hs hp p0 p1) (by omega) ?_ ?_
  · refine key.trans (mul_le_mul_of_nonneg_left ?_ h.K.le)
    rw [Nat.mul_div_mul_left _ _ two_pos]
    have hle : t / (2 * n : ℕ) ≤ t / n := by
      rw [e2]; exact div_le_div_of_nonneg_left h.t.le hn' (by linarith)
    have w := waiting_mono (b := b) hr hle
    have w' : ((2 * k : ℕ) : ℝ) * (t / (2 * n : ℕ)) = k * (t / n) := by push_cast; field_simp
    rw [w']
    have hsq := sqrt_le_sqrt hle
    have hc : σ * √(t / (2 * n : ℕ)) * (15 + 31 * ((|b| + σ ^ 2 / 2) / σ * √t) * (1 + σ * √t))
        ≤ σ * √(t / n) * (15 + 31 * ((|b| + σ ^ 2 / 2) / σ * √t) * (1 + σ * √t)) :=
      mul_le_mul_of_nonneg_right (mul_le_mul_of_nonneg_left hsq h.σ.le) (by positivity)
    have := mul_le_mul_of_nonneg_left hc (show (0 : ℝ) ≤ (n / k : ℕ) + 1 by positivity)
    linarith
  · rw [e]
    exact mul_le_mul_of_nonneg_left
      (hop.dp_mono (ex := every (2 * k)) (ex' := every 2) (fun j hj => (dvd_mul_right 2 k).trans hj) _ _) h.K.le
  · rw [e]
    exact mul_le_mul_of_nonneg_left
      (hop.dp_mono (ex := every 2) (ex' := every 1) (fun j _ => one_dvd j) _ _) h.K.le

/-- **C95** (`TrinomialTreeOption`, calls), `b ≤ r`. -/
theorem C95_trinomial_call {S K t σ : ℝ} (h : Valid S K t σ) {r b : ℝ} (hb : b ≤ r) {n : ℕ} (hn : 0 < n)
    (hs : (|b| + σ ^ 2 / 2) / σ * √(t / (2 * n)) ≤ 1) :
    ∃ x, price3 ⟨S, K, t, r, b, σ, "american", n⟩ true = .ok x ∧
      |x - american true S K t r b σ|
        ≤ S * (2 * (15 + 31 * ((|b| + σ ^ 2 / 2) / σ * √t) * (1 + σ * √t)) * (σ * √t) / n ^ (1 / 4 : ℝ)
          + 2 * waiting (r - b) (-b) (2 * t / n ^ (1 / 4 : ℝ))) := by
  obtain ⟨x, hx, hx'⟩ := C71_trinomial ⟨S, K, t, r, b, σ, "american", n⟩ ⟨h.t, h.σ, hn⟩ (Or.inr rfl) true
  obtain ⟨y, hy, hy'⟩ := C95_trinomial_put (S := K) (K := S) ⟨h.K, h.S, h.t, h.σ⟩ (sub_nonneg.2 hb) (-b) hn
    (by rwa [abs_neg])
  have hxy : x = y := by
    have := hx'.symm.trans hy
    injection this
  refine ⟨x, hx, ?_⟩
  rw [american_symmetry h.S h.K h.t.le, hxy]
  rwa [abs_neg] at hy'

/-! ### Limits -/

theorem rate_tendsto (K A r b t : ℝ) :
    Tendsto (fun n : ℕ => K * (A / (n : ℝ) ^ (1 / 4 : ℝ) + 2 * waiting r b (2 * t / (n : ℝ) ^ (1 / 4 : ℝ)))) atTop (𝓝 0) := by
  have h1 : Tendsto (fun n : ℕ => (n : ℝ) ^ (1 / 4 : ℝ)) atTop atTop :=
    (tendsto_rpow_atTop (by norm_num)).comp tendsto_natCast_atTop_atTop
  have hw : Continuous (waiting r b) := by unfold waiting; fun_prop
  have h2 := (hw.tendsto 0).comp (h1.const_div_atTop (2 * t))
  have h3 := (((h1.const_div_atTop A).add (h2.const_mul 2)).const_mul K)
  have e : K * (0 + 2 * waiting r b 0) = 0 := by simp [waiting]
  rw [e] at h3
  exact h3

theorem step_eventually (θ t : ℝ) : ∀ᶠ n : ℕ in atTop, θ * √(t / n) ≤ 1 := by
  have h : Tendsto (fun n : ℕ => θ * √(t / n)) atTop (𝓝 (θ * √0)) :=
    ((continuous_sqrt.tendsto 0).comp (tendsto_natCast_atTop_atTop.const_div_atTop t)).const_mul θ
  rw [sqrt_zero, mul_zero] at h
  exact (h.eventually_lt_const one_pos).mono fun n hn => hn.le

theorem close_eventually {f : ℕ → Except PyErr ℝ} {A : ℝ} {B : ℕ → ℝ} (hB : Tendsto B atTop (𝓝 0))
    (h : ∀ᶠ n in atTop, ∃ x, f n = .ok x ∧ |x - A| ≤ B n) {ε : ℝ} (hε : 0 < ε) :
    ∀ᶠ n in atTop, ∃ x, f n = .ok x ∧ |x - A| < ε := by
  filter_upwards [h, hB.eventually_lt_const hε] with n ⟨x, hx, hb⟩ hn
  exact ⟨x, hx, hb.trans_lt hn⟩

/-- **C95**, limit of American puts of the three binomial classes, any carry rate. -/
theorem C95_limit_put (c : Cls) {S K t σ : ℝ} (h : Valid S K t σ) {r : ℝ} (hr : 0 ≤ r) (b : ℝ) {ε : ℝ} (hε : 0 < ε) :
    ∀ᶠ n : ℕ in atTop, ∃ x, price c ⟨S, K, t, r, b, σ, "american", n⟩ false = .ok x ∧
      |x - american false S K t r b σ| < ε := by
  cases c
  · refine close_eventually (rate_tendsto K (2 * (15 + 31 * ((|b| + σ ^ 2 / 2) / σ * √t) * (1 + σ * √t)) * (σ * √t)) r b t) ?_
      hε
    filter_upwards [eventually_gt_atTop 0, step_eventually ((|b| + σ ^ 2 / 2) / σ) t] with n hn hs
    exact C95_crr_put h hr b hn hs
  · refine close_eventually (rate_tendsto K (9 * (σ * √t)) r b t) ?_
      hε
    filter_upwards [eventually_gt_atTop 0] with n hn
    exact C95_jr_put h hr b hn
  · refine close_eventually (rate_tendsto K (2 * (94 + 279 * (σ * √t) + 18 * (σ * √t) ^ 2) * (σ * √t)) r b t) ?_
      hε
    have h5 : ∀ᶠ n : ℕ in atTop, σ ^ 2 * (t / n) ≤ 1 / 5 := by
      have h := (tendsto_natCast_atTop_atTop (R := ℝ)).const_div_atTop t
      have h := h.const_mul (σ ^ 2)
      rw [mul_zero] at h
      exact (h.eventually_lt_const (by norm_num)).mono fun n hn => hn.le
    filter_upwards [eventually_gt_atTop 0, h5] with n hn hs
    exact C95_tian_put h hr b hn hs

/-- **C95**, limit of American trinomial puts. -/
theorem C95_limit_trinomial {S K t σ : ℝ} (h : Valid S K t σ) {r : ℝ} (hr : 0 ≤ r) (b : ℝ) {ε : ℝ} (hε : 0 < ε) :
    ∀ᶠ n : ℕ in atTop, ∃ x, price3 ⟨S, K, t, r, b, σ, "american", n⟩ false = .ok x ∧
      |x - american false S K t r b σ| < ε := by
  refine close_eventually (rate_tendsto K (2 * (15 + 31 * ((|b| + σ ^ 2 / 2) / σ * √t) * (1 + σ * √t)) * (σ * √t)) r b t) ?_
      hε
  filter_upwards [eventually_gt_atTop 0, step_eventually ((|b| + σ ^ 2 / 2) / σ) (t / 2)] with n hn hs
  refine C95_trinomial_put h hr b hn ?_
  rwa [div_div] at hs

/-- **C95**, limit of American calls on the CRR lattice (the trinomial one is `C95_limit_trinomial_call`), whenever `b ≤ r` or `0 ≤ r`. -/
theorem C95_limit_call {S K t σ : ℝ} (h : Valid S K t σ) {r b : ℝ} (hrb : b ≤ r ∨ 0 ≤ r) {ε : ℝ} (hε : 0 < ε) :
    ∀ᶠ n : ℕ in atTop, ∃ x, price .crr ⟨S, K, t, r, b, σ, "american", n⟩ true = .ok x ∧
      |x - american true S K t r b σ| < ε := by
  rcases le_total b r with hb | hb
  · refine close_eventually (rate_tendsto S (2 * (15 + 31 * ((|b| + σ ^ 2 / 2) / σ * √t) * (1 + σ * √t)) * (σ * √t)) (r - b) (-b) t) ?_
      hε
    filter_upwards [eventually_gt_atTop 0, step_eventually ((|b| + σ ^ 2 / 2) / σ) t] with n hn hs
    exact C95_crr_call h hb hn hs
  · rcases hrb with hb' | hr
    · refine close_eventually (rate_tendsto S (2 * (15 + 31 * ((|b| + σ ^ 2 / 2) / σ * √t) * (1 + σ * √t)) * (σ * √t)) (r - b) (-b) t) ?_
        hε
      filter_upwards [eventually_gt_atTop 0, step_eventually ((|b| + σ ^ 2 / 2) / σ) t] with n hn hs
      exact C95_crr_call h hb' hn hs
    · refine close_eventually (B := fun n : ℕ => K * exp (-r * t) * (σ * √(t / n))
        * (4 + 17 * ((|b| + σ ^ 2 / 2) / σ * √t) * (1 + σ * √t))) ?_ ?_ hε
      · have h0 : Tendsto (fun n : ℕ => √(t / n)) atTop (𝓝 (√0)) :=
          (continuous_sqrt.tendsto 0).comp (tendsto_natCast_atTop_atTop.const_div_atTop t)
        have h1 := ((h0.const_mul σ).const_mul (K * exp (-r * t))).mul_const
          (4 + 17 * ((|b| + σ ^ 2 / 2) / σ * √t) * (1 + σ * √t))
        rw [sqrt_zero, mul_zero, mul_zero, zero_mul] at h1
        exact h1
      · filter_upwards [eventually_gt_atTop 0, step_eventually ((|b| + σ ^ 2 / 2) / σ) t] with n hn hs
        exact C95_crr_call_carry h hr hb hn hs

/-- **C95**, all tree classes agree in the limit on American puts. -/
theorem C95_classes_agree (c c' : Cls) {S K t σ : ℝ} (h : Valid S K t σ) {r : ℝ} (hr : 0 ≤ r) (b : ℝ) {ε : ℝ} (hε : 0 < ε) :
    ∃ N : ℕ, ∀ n ≥ N, ∀ m ≥ N, ∃ x y z, price c ⟨S, K, t, r, b, σ, "american", n⟩ false = .ok x ∧
      price c' ⟨S, K, t, r, b, σ, "american", m⟩ false = .ok y ∧
      price3 ⟨S, K, t, r, b, σ, "american", m⟩ false = .ok z ∧ |x - y| < ε ∧ |x - z| < ε := by
  have hε' : 0 < ε / 2 := by linarith
  obtain ⟨N, hN⟩ := eventually_atTop.1 (C95_limit_put c h hr b hε')
  obtain ⟨M, hM⟩ := eventually_atTop.1 (C95_limit_put c' h hr b hε')
  obtain ⟨L, hL⟩ := eventually_atTop.1 (C95_limit_trinomial h hr b hε')
  refine ⟨max N (max M L), fun n hn m hm => ?_⟩
  obtain ⟨x, hx, bx⟩ := hN n (le_trans (le_max_left _ _) hn)
  obtain ⟨y, hy, by'⟩ := hM m (le_trans ((le_max_left _ _).trans (le_max_right _ _)) hm)
  obtain ⟨z, hz, bz⟩ := hL m (le_trans ((le_max_right _ _).trans (le_max_right _ _)) hm)
  refine ⟨x, y, z, hx, hy, hz, ?_, ?_⟩ <;> rw [abs_lt] at * <;> constructor <;> linarith

/-! ### What the limit is -/

/-- **C95**, facts about the specification: the American put lies between the European put and the strike and is never
below immediate exercise; a call with `0 ≤ r ≤ b` is worth the European call. -/
theorem C95_value {S K t σ : ℝ} (h : Valid S K t σ) {r : ℝ} (hr : 0 ≤ r) (b : ℝ) :
    bsPut S K t r b σ ≤ american false S K t r b σ ∧ K - S ≤ american false S K t r b σ ∧
      american false S K t r b σ ≤ K ∧ (r ≤ b → american true S K t r b σ = bsCall S K t r b σ) := by
  obtain ⟨h1, h2, h3⟩ := american_put_bounds (b := b) (σ := σ) h.S h.K h.t.le hr
  refine ⟨h1, le_trans ?_ h2, h3, american_call_european h.S.le h.K.le h.t.le hr⟩
  simp only [exercise, Bool.false_eq_true, if_false]
  exact le_max_left _ _

/-- **C95**: early exercise can be worth something, so the American limit is not the European one of C68 and C94:
deep in the money with `r = 1`, the put is worth at least `K - S` and the European put at most `K e^{-rt}`. -/
theorem C95_premium : ∃ S K t r b σ : ℝ, Valid S K t σ ∧ 0 ≤ r ∧ bsPut S K t r b σ + 1 < american false S K t r b σ := by
  have hv : Valid (1 : ℝ) 10 1 1 := ⟨by norm_num, by norm_num, by norm_num, by norm_num⟩
  refine ⟨1, 10, 1, 1, 0, 1, hv, by norm_num, ?_⟩
  have h1 := (C95_value hv zero_le_one 0).2.1
  have h2 : bsPut 1 10 1 1 0 1 ≤ exp (-1 * 1) * 10 := by
    unfold bsPut
    refine mul_le_mul_of_nonneg_left ?_ (exp_pos _).le
    have : ∫ _ : ℝ, (10 : ℝ) ∂gaussianReal 0 1 = 10 := by simp
    rw [← this]
    refine integral_mono_of_nonneg (.of_forall fun z => le_max_right _ _) (integrable_const _) (.of_forall fun z => ?_)
    have : 0 < Spec.terminal 1 1 0 1 z := mul_pos one_pos (exp_pos _)
    exact max_le (by linarith) (by norm_num)
  have h3 : exp (-1 * 1 : ℝ) ≤ 1 / 2 := by
    have := exp_one_gt_d9
    rw [mul_one, exp_neg, inv_le_comm₀ (exp_pos _) (by norm_num)]
    linarith
  have h4 : bsPut 1 10 1 1 0 1 ≤ 5 := by
    refine h2.trans ?_
    calc exp (-1 * 1) * 10 ≤ 1 / 2 * 10 := mul_le_mul_of_nonneg_right h3 (by norm_num)
      _ = 5 := by norm_num
  generalize american false 1 10 1 1 0 1 = A at *
  generalize bsPut 1 10 1 1 0 1 = B at *
  linarith

/-- The documented American put (`S = K = 50`, five months, `r = b = 0.1`, `σ = 0.4`, 5 steps) meets the conditions. -/
example : ∃ x, price .crr ⟨50, 50, 5 / 12, 1 / 10, 1 / 10, 2 / 5, "american", 5⟩ false = .ok x ∧
    |x - american false 50 50 (5 / 12) (1 / 10) (1 / 10) (2 / 5)|
      ≤ 50 * (2 * (15 + 31 * ((|(1 / 10 : ℝ)| + (2 / 5) ^ 2 / 2) / (2 / 5) * √(5 / 12)) * (1 + 2 / 5 * √(5 / 12)))
        * (2 / 5 * √(5 / 12)) / ((5 : ℕ) : ℝ) ^ (1 / 4 : ℝ)
          + 2 * waiting (1 / 10) (1 / 10) (2 * (5 / 12) / ((5 : ℕ) : ℝ) ^ (1 / 4 : ℝ))) := by
  refine C95_crr_put ⟨by norm_num, by norm_num, by norm_num, by norm_num⟩ (by norm_num) _ (by norm_num) ?_
  have h : √((5 / 12 : ℝ) / (5 : ℕ)) ≤ 1 := by rw [sqrt_le_one]; norm_num
  have h0 : 0 ≤ √((5 / 12 : ℝ) / (5 : ℕ)) := sqrt_nonneg _
  rw [abs_of_pos (by norm_num)]
  nlinarith

end Verif.Props
