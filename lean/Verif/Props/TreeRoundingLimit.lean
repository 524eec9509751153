import Verif.Props.TreeRoundingFactors

/-!
# C85: the computed price tends to the exact one

For every class and every contract (with lattice probabilities strictly inside the unit interval) the price computed with
relative error `e` per operation tends to the exactly computed one as `e` tends to zero, uniformly over all arithmetics with
that error.
-/

namespace Verif.Props
open Verif Verif.Spec Real Py _root_.Verif.Tree

section limits
open Filter Topology

theorem tendsto_cond {f : ℝ → ℝ} {l : Filter ℝ} (hf : Tendsto f l (𝓝 0)) (κ : ℝ) :
    Tendsto (fun e => log (1 + (exp (f e) - 1) * κ)) l (𝓝 0) := by
  have h1 : Tendsto (fun e => 1 + (exp (f e) - 1) * κ) l (𝓝 (1 + (exp 0 - 1) * κ)) :=
    (((continuous_exp.tendsto 0).comp hf).sub_const 1 |>.mul_const κ).const_add 1
  have := h1.log (by simp)
  simpa using this

theorem tendsto_level {f : ℝ → ℝ} {l : Filter ℝ} (hf : Tendsto f l (𝓝 0)) :
    Tendsto (fun e => f e - log (2 - exp (f e))) l (𝓝 0) := by
  have h1 : Tendsto (fun e => 2 - exp (f e)) l (𝓝 (2 - exp 0)) := ((continuous_exp.tendsto 0).comp hf).const_sub 2
  have := hf.sub (h1.log (by norm_num))
  simpa [show (2 : ℝ) - 1 = 1 by norm_num] using this

theorem tendsto_exp_lt {f : ℝ → ℝ} {l : Filter ℝ} (hf : Tendsto f l (𝓝 0)) : ∀ᶠ e in l, exp (f e) < 2 := by
  have h1 : Tendsto (fun e => exp (f e)) l (𝓝 (exp 0)) := (continuous_exp.tendsto 0).comp hf
  exact h1.eventually (gt_mem_nhds (by simp))

theorem tendsto_log_one_add : Tendsto (fun e : ℝ => log (1 + e)) (𝓝 0) (𝓝 0) := by
  have : Tendsto (fun e : ℝ => 1 + e) (𝓝 0) (𝓝 (1 + 0)) := tendsto_id.const_add 1
  simpa using this.log (by simp)

theorem tendsto_pow_sub (k : ℕ) : Tendsto (fun e : ℝ => (1 + e) ^ k - 1) (𝓝 0) (𝓝 0) := by
  have : Tendsto (fun e : ℝ => (1 + e) ^ k - 1) (𝓝 0) (𝓝 ((1 + 0) ^ k - 1)) := ((tendsto_id.const_add 1).pow k).sub_const 1
  simpa using this

theorem tendsto_bound {f : ℝ → ℝ} {l : Filter ℝ} (hf : Tendsto f l (𝓝 0)) (B : ℝ) :
    Tendsto (fun e => (exp (f e) - 1) * B) l (𝓝 0) := by
  have : Tendsto (fun e => (exp (f e) - 1) * B) l (𝓝 ((exp 0 - 1) * B)) :=
    (((continuous_exp.tendsto 0).comp hf).sub_const 1).mul_const B
  simpa using this

theorem of_eventually {P : ℝ → Prop} (h : ∀ᶠ e in 𝓝 (0 : ℝ), 0 ≤ e → P e) : ∃ e₀ > 0, ∀ e, 0 ≤ e → e ≤ e₀ → P e := by
  obtain ⟨δ, hδ, h⟩ := Metric.eventually_nhds_iff.1 h
  refine ⟨δ / 2, by positivity, fun e he hle => h ?_ he⟩
  rw [dist_zero_right, norm_eq_abs, abs_of_nonneg he]
  linarith

/-- A condition number for a difference of positive numbers. -/
theorem cond_exists {x y : ℝ} (h : y < x) : ∃ κ, x + y ≤ κ * (x - y) :=
  ⟨(x + y) / (x - y), by rw [div_mul_cancel₀ _ (by linarith)]⟩

/-- C85: JR trees, computed prices tend to the exact one as the relative error of the operations tends to zero. -/
theorem C85_limit_jr (o : Opt) (hS : 0 ≤ o.S) (hK : 0 ≤ o.K) (h : TreeValid o)
    (htype : o.type = "european" ∨ o.type = "american") (isCall : Bool) {ε : ℝ} (hε : 0 < ε) :
    ∃ e₀ > 0, ∀ e, 0 ≤ e → e ≤ e₀ → ∀ A, Rounded e A →
      ∃ v' v, TreeFl.price A .jr o isCall = .ok v' ∧ Tree.price .jr o isCall = .ok v ∧ |v' - v| < ε := by
  have hlim := tendsto_bound (l := 𝓝 0) (f := fun e => (8 + 6 * o.n) * log (1 + e) + ((1 + e) ^ 6 - 1) *
          ((|o.b| + o.sigma ^ 2 / 2 + |o.r|) * o.t + o.sigma * √(o.n * o.t)))
    (by simpa using (tendsto_log_one_add.const_mul ((8 : ℝ) + 6 * o.n)).add ((tendsto_pow_sub 6).mul_const
      ((|o.b| + o.sigma ^ 2 / 2 + |o.r|) * o.t + o.sigma * √(o.n * o.t))))
    (exp (max 0 (max (o.b - o.r) (-o.r)) * o.t) * (o.S + o.K))
  refine of_eventually ?_
  filter_upwards [hlim.eventually (gt_mem_nhds hε), gt_mem_nhds (zero_lt_one (α := ℝ))] with e hb he1 he A hA
  obtain ⟨v', v, h1, h2, h3⟩ := C85_jr hA he he1.le o hS hK h.t.le h.sigma.le h.ne htype isCall
  exact ⟨v', v, h1, h2, h3.trans_lt hb⟩

/-- C85: CRR trees, computed prices tend to the exact one as the relative error of the operations tends to zero. -/
theorem C85_limit_crr (o : Opt) (hS : 0 ≤ o.S) (hK : 0 ≤ o.K) (h : TreeValid o) (hb : |o.b| * √(o.t / o.n) < o.sigma)
    (htype : o.type = "european" ∨ o.type = "american") (isCall : Bool) {ε : ℝ} (hε : 0 < ε) :
    ∃ e₀ > 0, ∀ e, 0 ≤ e → e ≤ e₀ → ∀ A, Rounded e A →
      ∃ v' v, TreeFl.price A .crr o isCall = .ok v' ∧ Tree.price .crr o isCall = .ok v ∧ |v' - v| < ε := by
  have hs := sqrt_pos.2 h.dt
  have hb' : |o.b| * (o.t / o.n) < o.sigma * √(o.t / o.n) := by
    have := mul_lt_mul_of_pos_right hb hs
    rwa [mul_assoc, mul_self_sqrt h.dt.le] at this
  have hbb := abs_le.1 (show |o.b * (o.t / o.n)| ≤ |o.b| * (o.t / o.n) by rw [abs_mul, abs_of_pos h.dt])
  have hdE : exp (-(o.sigma * √(o.t / o.n))) < exp (o.b * (o.t / o.n)) := exp_lt_exp.2 (by linarith)
  have hEu : exp (o.b * (o.t / o.n)) < exp (o.sigma * √(o.t / o.n)) := exp_lt_exp.2 (by linarith)
  obtain ⟨k1, hk1⟩ := cond_exists hdE
  obtain ⟨k2, hk2⟩ := cond_exists (hdE.trans hEu)
  have hk1' := hk1.trans (mul_le_mul_of_nonneg_right (le_max_left k1 k2) (sub_pos.2 hdE).le)
  have hk2' := hk2.trans (mul_le_mul_of_nonneg_right (le_max_right k1 k2) (sub_pos.2 (hdE.trans hEu)).le)
  obtain ⟨κ', hκ1, hκ3⟩ : ∃ κ' : ℝ, 1 ≤ κ' ∧ exp (o.b * (o.t / o.n)) - exp (-(o.sigma * √(o.t / o.n)))
      ≤ κ' * (exp (o.sigma * √(o.t / o.n)) - exp (o.b * (o.t / o.n))) := by
    refine ⟨max 1 ((exp (o.b * (o.t / o.n)) - exp (-(o.sigma * √(o.t / o.n))))
      / (exp (o.sigma * √(o.t / o.n)) - exp (o.b * (o.t / o.n)))), le_max_left _ _, ?_⟩
    rw [← div_le_iff₀ (sub_pos.2 hEu)]
    exact le_max_right _ _
  generalize max k1 k2 = κ at *
  set η : ℝ → ℝ := fun e => ((1 + e) ^ 3 - 1) * (o.sigma * √(o.t / o.n) + (|o.b| + |o.r|) * (o.t / o.n)) - 2 * log (1 - e)
    with hηdef
  have hη : Tendsto η (𝓝 0) (𝓝 0) := by
    have h1 : Tendsto (fun e : ℝ => 1 - e) (𝓝 0) (𝓝 (1 - 0)) := tendsto_id.const_sub 1
    have h2 := h1.log (by simp)
    have := ((tendsto_pow_sub 3).mul_const (o.sigma * √(o.t / o.n) + (|o.b| + |o.r|) * (o.t / o.n))).sub (h2.const_mul 2)
    rw [hηdef]
    simpa using this
  set ω : ℝ → ℝ := fun e => ((1 + e) * exp (η e) - 1) * κ with hωdef
  have h1e : Tendsto (fun e : ℝ => 1 + e) (𝓝 0) (𝓝 1) := by simpa using (tendsto_id (α := ℝ) (x := 𝓝 0)).const_add 1
  have hω : Tendsto ω (𝓝 0) (𝓝 0) := by
    have := ((h1e.mul ((continuous_exp.tendsto 0).comp hη)).sub_const 1).mul_const κ
    simpa using this
  set ρ : ℝ → ℝ := fun e => (1 + e) * (1 + ω e) / (1 - ω e) - 1 with hρdef
  have hρ : Tendsto ρ (𝓝 0) (𝓝 0) := by
    have := ((h1e.mul (hω.const_add 1)).div (hω.const_sub 1) (by simp)).sub_const 1
    simpa using this
  have hlog : Tendsto (fun e => log (1 + ρ e * κ')) (𝓝 0) (𝓝 0) := by
    have := ((hρ.mul_const κ').const_add 1).log (by simp)
    simpa using this
  have hlim := tendsto_bound (l := 𝓝 0) (f := fun e => (8 + 4 * o.n) * log (1 + e) + o.n * (2 * η e + log (1 + ρ e * κ')))
    (by simpa using (tendsto_log_one_add.const_mul ((8 : ℝ) + 4 * o.n)).add (((hη.const_mul 2).add hlog).const_mul (o.n : ℝ)))
    (exp (max 0 (max (o.b - o.r) (-o.r)) * o.t) * (o.S + o.K))
  refine of_eventually ?_
  filter_upwards [hlim.eventually (gt_mem_nhds hε), gt_mem_nhds (zero_lt_one (α := ℝ)),
    hω.eventually (gt_mem_nhds (zero_lt_one (α := ℝ)))] with e hbd he1 hω1 he A hA
  obtain ⟨v', v, h1, h2, h3⟩ := C85_crr hA he he1 o hS hK h.t.le h.sigma.le h.ne hb' htype isCall rfl rfl rfl rfl hk1' hk2' hκ3 hκ1
    rfl hω1 rfl
  exact ⟨v', v, h1, h2, h3.trans_lt hbd⟩

/-- C85: TIAN trees, computed prices tend to the exact one as the relative error of the operations tends to zero. -/
theorem C85_limit_tian (o : Opt) (hS : 0 ≤ o.S) (hK : 0 ≤ o.K) (h : TreeValid o)
    (htype : o.type = "european" ∨ o.type = "american") (isCall : Bool) {ε : ℝ} (hε : 0 < ε) :
    ∃ e₀ > 0, ∀ e, 0 ≤ e → e ≤ e₀ → ∀ A, Rounded e A →
      ∃ v' v, TreeFl.price A .tian o isCall = .ok v' ∧ Tree.price .tian o isCall = .ok v ∧ |v' - v| < ε := by
  obtain ⟨M, hM⟩ : ∃ M, M = exp (o.b * (o.t / o.n)) := ⟨_, rfl⟩
  obtain ⟨V, hV⟩ : ∃ V, V = exp (o.sigma ^ 2 * (o.t / o.n)) := ⟨_, rfl⟩
  obtain ⟨w, hw⟩ : ∃ w, w = √(V * V + 2 * V - 3) := ⟨_, rfl⟩
  obtain ⟨u, hu⟩ : ∃ u, u = M * V / 2 * (V + 1 + w) := ⟨_, rfl⟩
  obtain ⟨d, hd⟩ : ∃ d, d = M * V / 2 * (V + 1 - w) := ⟨_, rfl⟩
  have hV1 : 1 < V := by rw [hV]; exact one_lt_exp_iff.2 (mul_pos (pow_pos h.sigma 2) h.dt)
  have hM0 : 0 < M := by rw [hM]; exact exp_pos _
  obtain ⟨hd0, hdM, hMu⟩ := tian_aux hM0 hV1
  rw [← hw, ← hd] at hd0 hdM
  rw [← hw, ← hu] at hMu
  have hQ : 3 < V * V + 2 * V := by nlinarith
  have hdiff : w < V + 1 := by
    have h1 : 0 < M * V / 2 := by positivity
    rw [hd] at hd0
    linarith [(pos_iff_pos_of_mul_pos hd0).1 h1]
  obtain ⟨κ₁, hκ1⟩ := cond_exists hQ
  obtain ⟨κ₂, hκ2⟩ := cond_exists hdiff
  obtain ⟨k1, hk1⟩ := cond_exists hdM
  obtain ⟨k2, hk2⟩ := cond_exists (hdM.trans hMu)
  have hκ3 := hk1.trans (mul_le_mul_of_nonneg_right (le_max_left k1 k2) (sub_pos.2 hdM).le)
  have hκ3' := hk2.trans (mul_le_mul_of_nonneg_right (le_max_right k1 k2) (sub_pos.2 (hdM.trans hMu)).le)
  generalize max k1 k2 = κ₃ at *
  obtain ⟨κ₄, hκ4', hκ4⟩ : ∃ κ₄ : ℝ, 1 ≤ κ₄ ∧ M - d ≤ κ₄ * (u - M) := by
    refine ⟨max 1 ((M - d) / (u - M)), le_max_left _ _, ?_⟩
    rw [← div_le_iff₀ (sub_pos.2 hMu)]
    exact le_max_right _ _
  obtain ⟨η, hηdef⟩ : ∃ η : ℝ → ℝ, ∀ e, η e = ((1 + e) ^ 3 - 1) * ((|o.b| + |o.r| + o.sigma ^ 2) * (o.t / o.n)) + log (1 + e) :=
    ⟨_, fun _ => rfl⟩
  have hη : Tendsto η (𝓝 0) (𝓝 0) := by
    rw [funext hηdef]
    simpa using ((tendsto_pow_sub 3).mul_const ((|o.b| + |o.r| + o.sigma ^ 2) * (o.t / o.n))).add tendsto_log_one_add
  have hLk : ∀ k : ℝ, Tendsto (fun e : ℝ => k * log (1 + e)) (𝓝 0) (𝓝 0) := fun k => by
    simpa using tendsto_log_one_add.const_mul k
  obtain ⟨ω₁, h1def⟩ : ∃ ω₁ : ℝ → ℝ, ∀ e, ω₁ e = log (1 + (exp (2 * η e + 3 * log (1 + e)) - 1) * κ₁) := ⟨_, fun _ => rfl⟩
  have h1 : Tendsto ω₁ (𝓝 0) (𝓝 0) := by
    rw [funext h1def]
    exact tendsto_cond (by simpa using (hη.const_mul 2).add (hLk 3)) κ₁
  obtain ⟨ω₂, h2def⟩ : ∃ ω₂ : ℝ → ℝ, ∀ e, ω₂ e = log (1 + (exp (ω₁ e + 2 * log (1 + e)) - 1) * κ₂) := ⟨_, fun _ => rfl⟩
  have h2 : Tendsto ω₂ (𝓝 0) (𝓝 0) := by
    rw [funext h2def]
    exact tendsto_cond (by simpa using h1.add (hLk 2)) κ₂
  obtain ⟨ζ, hζdef⟩ : ∃ ζ : ℝ → ℝ, ∀ e, ζ e = 2 * η e + ω₂ e + 4 * log (1 + e) := ⟨_, fun _ => rfl⟩
  have hζ : Tendsto ζ (𝓝 0) (𝓝 0) := by
    rw [funext hζdef]
    simpa using ((hη.const_mul 2).add h2).add (hLk 4)
  obtain ⟨ω₃, h3def⟩ : ∃ ω₃ : ℝ → ℝ, ∀ e, ω₃ e = log (1 + (exp (ζ e + log (1 + e)) - 1) * κ₃) := ⟨_, fun _ => rfl⟩
  have h3 : Tendsto ω₃ (𝓝 0) (𝓝 0) := by
    rw [funext h3def]
    exact tendsto_cond (by simpa using hζ.add tendsto_log_one_add) κ₃
  obtain ⟨p, hpdef⟩ : ∃ p : ℝ → ℝ, ∀ e, p e = ω₃ e - log (2 - exp (ω₃ e)) + log (1 + e) := ⟨_, fun _ => rfl⟩
  have hp : Tendsto p (𝓝 0) (𝓝 0) := by
    rw [funext hpdef]
    simpa using (tendsto_level h3).add tendsto_log_one_add
  obtain ⟨c, hcdef⟩ : ∃ c : ℝ → ℝ, ∀ e, c e = log (1 + (exp (p e) - 1) * κ₄) := ⟨_, fun _ => rfl⟩
  have hc : Tendsto c (𝓝 0) (𝓝 0) := by
    rw [funext hcdef]
    exact tendsto_cond hp κ₄
  have hlim := tendsto_bound (l := 𝓝 0) (f := fun e => (8 + 4 * o.n) * log (1 + e) + o.n * (ζ e + c e + η e))
    (by simpa using (hLk ((8 : ℝ) + 4 * o.n)).add (((hζ.add hc).add hη).const_mul (o.n : ℝ)))
    (exp (max 0 (max (o.b - o.r) (-o.r)) * o.t) * (o.S + o.K))
  refine of_eventually ?_
  filter_upwards [hlim.eventually (gt_mem_nhds hε), tendsto_exp_lt h1, tendsto_exp_lt h3] with e hbd hx1 hx3 he A hA
  obtain ⟨v', v, g1, g2, g3⟩ := C85_tian hA he o hS hK h htype isCall hM hV hw hu hd (hηdef e) hκ1 hκ2 hκ3 hκ3' hκ4 hκ4' (h1def e) hx1.le
    (h2def e) (hζdef e) (h3def e) hx3 (hpdef e) (hcdef e)
  exact ⟨v', v, g1, g2, g3.trans_lt hbd⟩

/-- C85: trinomial trees, computed prices tend to the exact one as the relative error of the operations tends to zero. -/
theorem C85_limit_trinomial (o : Opt) (hS : 0 ≤ o.S) (hK : 0 ≤ o.K) (h : TreeValid o)
    (hb : |o.b| * √(o.t / o.n / 2) < o.sigma)
    (htype : o.type = "european" ∨ o.type = "american") (isCall : Bool) {ε : ℝ} (hε : 0 < ε) :
    ∃ e₀ > 0, ∀ e, 0 ≤ e → e ≤ e₀ → ∀ A, Rounded e A →
      ∃ v' v, TreeFl.price3 A o isCall = .ok v' ∧ Tree.price3 o isCall = .ok v ∧ |v' - v| < ε := by
  obtain ⟨x, hx⟩ : ∃ x, x = exp (-o.sigma * √(o.t / o.n / 2)) := ⟨_, rfl⟩
  obtain ⟨y, hy⟩ : ∃ y, y = exp (o.sigma * √(o.t / o.n / 2)) := ⟨_, rfl⟩
  obtain ⟨m, hm⟩ : ∃ m, m = exp (o.b * (o.t / o.n) / 2) := ⟨_, rfl⟩
  have hdt := h.dt
  have hsq : √(o.t / o.n / 2) * √(o.t / o.n / 2) = o.t / o.n / 2 := mul_self_sqrt (by linarith)
  have hsp : 0 < √(o.t / o.n / 2) := sqrt_pos.2 (by linarith)
  have hbb : |o.b * (o.t / o.n) / 2| < o.sigma * √(o.t / o.n / 2) := by
    have := mul_lt_mul_of_pos_right hb hsp
    rw [mul_assoc, hsq] at this
    rw [abs_div, abs_mul, abs_of_pos hdt, abs_of_pos (by norm_num : (0 : ℝ) < 2)]
    linarith
  obtain ⟨l1, l2⟩ := abs_lt.1 hbb
  have hxm : x < m := by rw [hx, hm]; exact exp_lt_exp.2 (by linarith)
  have hmy : m < y := by rw [hy, hm]; exact exp_lt_exp.2 (by linarith)
  obtain ⟨k1, hk1⟩ := cond_exists hxm
  obtain ⟨k2, hk2⟩ := cond_exists hmy
  obtain ⟨k3, hk3⟩ := cond_exists (hxm.trans hmy)
  have hκ1 := hk1.trans (mul_le_mul_of_nonneg_right (le_max_left k1 (max k2 k3)) (sub_pos.2 hxm).le)
  have hκ2 := hk2.trans (mul_le_mul_of_nonneg_right ((le_max_left k2 k3).trans (le_max_right k1 _)) (sub_pos.2 hmy).le)
  have hκ3 := hk3.trans (mul_le_mul_of_nonneg_right ((le_max_right k2 k3).trans (le_max_right k1 _)) (sub_pos.2 (hxm.trans hmy)).le)
  generalize max k1 (max k2 k3) = κ at *
  have hyx : 0 < y - x := by linarith
  obtain ⟨κ', hκ'⟩ : ∃ κ', 1 + ((m - x) / (y - x)) ^ 2 + ((y - m) / (y - x)) ^ 2
      ≤ κ' * (1 - ((m - x) / (y - x)) ^ 2 - ((y - m) / (y - x)) ^ 2) := by
    have hpm1 : 0 < 1 - ((m - x) / (y - x)) ^ 2 - ((y - m) / (y - x)) ^ 2 := by
      have a1 : 0 < (m - x) / (y - x) := div_pos (by linarith) hyx
      have a2 : 0 < (y - m) / (y - x) := div_pos (by linarith) hyx
      have a3 : (m - x) / (y - x) + (y - m) / (y - x) = 1 := by field_simp; ring
      have a4 := mul_pos a1 a2
      have a5 : ((m - x) / (y - x) + (y - m) / (y - x)) ^ 2 = 1 := by rw [a3]; norm_num
      linarith [a5, add_sq ((m - x) / (y - x)) ((y - m) / (y - x))]
    exact ⟨_, (div_le_iff₀ hpm1).1 le_rfl⟩
  obtain ⟨η, hηdef⟩ : ∃ η : ℝ → ℝ, ∀ e, η e = ((1 + e) ^ 4 - 1) * (o.sigma * √(2 * (o.t / o.n)) + (|o.b| + |o.r|) * (o.t / o.n))
      + log (1 + e) := ⟨_, fun _ => rfl⟩
  have hη : Tendsto η (𝓝 0) (𝓝 0) := by
    rw [funext hηdef]
    simpa using ((tendsto_pow_sub 4).mul_const (o.sigma * √(2 * (o.t / o.n)) + (|o.b| + |o.r|) * (o.t / o.n))).add tendsto_log_one_add
  have hLk : ∀ k : ℝ, Tendsto (fun e : ℝ => k * log (1 + e)) (𝓝 0) (𝓝 0) := fun k => by
    simpa using tendsto_log_one_add.const_mul k
  obtain ⟨ω, hωdef⟩ : ∃ ω : ℝ → ℝ, ∀ e, ω e = log (1 + (exp (η e + log (1 + e)) - 1) * κ) := ⟨_, fun _ => rfl⟩
  have hω : Tendsto ω (𝓝 0) (𝓝 0) := by
    rw [funext hωdef]
    exact tendsto_cond (by simpa using hη.add tendsto_log_one_add) κ
  obtain ⟨θ, hθdef⟩ : ∃ θ : ℝ → ℝ, ∀ e, θ e = ω e - log (2 - exp (ω e)) + log (1 + e) := ⟨_, fun _ => rfl⟩
  have hθ : Tendsto θ (𝓝 0) (𝓝 0) := by
    rw [funext hθdef]
    simpa using (tendsto_level hω).add tendsto_log_one_add
  obtain ⟨c, hcdef⟩ : ∃ c : ℝ → ℝ, ∀ e, c e = log (1 + (exp (2 * θ e + 3 * log (1 + e)) - 1) * κ') := ⟨_, fun _ => rfl⟩
  have hc : Tendsto c (𝓝 0) (𝓝 0) := by
    rw [funext hcdef]
    exact tendsto_cond (by simpa using (hθ.const_mul 2).add (hLk 3)) κ'
  have hlim := tendsto_bound (l := 𝓝 0) (f := fun e => (6 + 4 * o.n) * log (1 + e) + o.n * (2 * η e + c e))
    (by simpa using (hLk ((6 : ℝ) + 4 * o.n)).add (((hη.const_mul 2).add hc).const_mul (o.n : ℝ)))
    (exp (max 0 (max (o.b - o.r) (-o.r)) * o.t) * (o.S + o.K))
  refine of_eventually ?_
  filter_upwards [hlim.eventually (gt_mem_nhds hε), tendsto_exp_lt hω,
    (tendsto_pow_sub 2).eventually (gt_mem_nhds (zero_lt_one (α := ℝ)))] with e hbd hx1 he1 he A hA
  obtain ⟨v', v, g1, g2, g3⟩ := C85_trinomial_params hA he (by linarith) o hS hK h hb htype isCall hx hy hm (hηdef e) hκ1 hκ2 hκ3
    (hωdef e) hx1 (hθdef e) hκ' (hcdef e)
  exact ⟨v', v, g1, g2, g3.trans_lt hbd⟩

/-- Non-vacuous: a trinomial and a TIAN contract meeting the hypotheses. -/
theorem C85_limit_example {ε : ℝ} (hε : 0 < ε) :
    (∃ e₀ > 0, ∀ e, 0 ≤ e → e ≤ e₀ → ∀ A, Rounded e A → ∃ v' v,
      TreeFl.price3 A ⟨100, 95, 1, 0.05, 0.01, 0.3, "american", 2⟩ false = .ok v' ∧
      Tree.price3 ⟨100, 95, 1, 0.05, 0.01, 0.3, "american", 2⟩ false = .ok v ∧ |v' - v| < ε) ∧
    ∃ e₀ > 0, ∀ e, 0 ≤ e → e ≤ e₀ → ∀ A, Rounded e A → ∃ v' v,
      TreeFl.price A .tian ⟨100, 95, 1, 0.05, 0.01, 0.3, "american", 2⟩ false = .ok v' ∧
      Tree.price .tian ⟨100, 95, 1, 0.05, 0.01, 0.3, "american", 2⟩ false = .ok v ∧ |v' - v| < ε := by
  have h : TreeValid ⟨100, 95, 1, 0.05, 0.01, 0.3, "american", 2⟩ := ⟨by norm_num, by norm_num, by norm_num⟩
  refine ⟨C85_limit_trinomial _ (by norm_num) (by norm_num) h ?_ (Or.inr rfl) false hε,
    C85_limit_tian _ (by norm_num) (by norm_num) h (Or.inr rfl) false hε⟩
  have h1 : √((1 : ℝ) / (2 : ℕ) / 2) ≤ 1 := sqrt_le_one.2 (by norm_num)
  have h2 : |(0.01 : ℝ)| = 0.01 := abs_of_pos (by norm_num)
  dsimp only
  rw [h2]
  linarith

end limits

end Verif.Props
