import Verif.Lemmas.TreeVal
import Mathlib.Analysis.SpecialFunctions.Trigonometric.Series

/-! Facts about the up/down factors and probabilities of each lattice class. -/
namespace Verif
open Real Spec _root_.Verif.Tree

theorem exp_div_pow (x t : ℝ) {n : ℕ} (hn : n ≠ 0) : exp (x * (t / n)) ^ n = exp (x * t) := by
  rw [← exp_nat_mul]
  congr 1
  have : (n : ℝ) ≠ 0 := by exact_mod_cast hn
  field_simp

theorem mean_eq {M u d : ℝ} (h : d < u) : (M - d) / (u - d) * u + (1 - (M - d) / (u - d)) * d = M := by
  have : u - d ≠ 0 := by linarith
  field_simp; ring

theorem prob_mem {M u d : ℝ} (h : d < u) (h1 : d ≤ M) (h2 : M ≤ u) :
    0 ≤ (M - d) / (u - d) ∧ (M - d) / (u - d) ≤ 1 := by
  have : 0 < u - d := by linarith
  constructor
  · exact div_nonneg (by linarith) this.le
  · rw [div_le_one this]; linarith

/-- Ordinary tree parameters. -/
structure TreeValid (o : Opt) : Prop where
  t : 0 < o.t
  sigma : 0 < o.sigma
  n : 0 < o.n

section
variable {o : Opt}

theorem TreeValid.dt (h : TreeValid o) : 0 < o.t / o.n := div_pos h.t (by exact_mod_cast h.n)

theorem TreeValid.ne (h : TreeValid o) : o.n ≠ 0 := h.n.ne'

/-- Facts shared by the CRR and TIAN lattices. -/
structure Good (f : Factors) (M : ℝ) : Prop where
  d_pos : 0 < f.d
  lt : f.d < f.u
  p : f.p = (M - f.d) / (f.u - f.d)

theorem Good.mean {f : Factors} {M : ℝ} (h : Good f M) : f.p * f.u + (1 - f.p) * f.d = M := by
  rw [h.p]; exact mean_eq h.lt

theorem good_crr (h : TreeValid o) : Good (factors .crr o) (exp (o.b * (o.t / o.n))) := by
  have hs : 0 < o.sigma * √(o.t / o.n) := mul_pos h.sigma (sqrt_pos.2 h.dt)
  have hu : 1 < exp (o.sigma * √(o.t / o.n)) := one_lt_exp_iff.2 hs
  refine ⟨by simp only [factors]; positivity, ?_, rfl⟩
  simp only [factors]
  rw [div_lt_iff₀ (by positivity)]
  nlinarith

theorem crr_d : (factors .crr o).d = exp (-(o.sigma * √(o.t / o.n))) := by
  simp only [factors, exp_neg, one_div]

/-- TIAN: with `M > 0`, `V > 1`. -/
theorem tian_aux {M V : ℝ} (hM : 0 < M) (hV : 1 < V) :
    0 < (M * V / 2) * (V + 1 - √(V * V + 2 * V - 3)) ∧
    (M * V / 2) * (V + 1 - √(V * V + 2 * V - 3)) < M ∧
    M < (M * V / 2) * (V + 1 + √(V * V + 2 * V - 3)) := by
  have hQ : 0 < V * V + 2 * V - 3 := by nlinarith
  have hs := sqrt_pos.2 hQ
  have hsq : √(V * V + 2 * V - 3) ^ 2 = V * V + 2 * V - 3 := sq_sqrt hQ.le
  set s := √(V * V + 2 * V - 3) with hsdef
  have h1 : s < V + 1 := by nlinarith
  have h2 : V * (V + 1) - 2 < V * s := by
    by_contra hcon
    push Not at hcon
    have : (V * s) ^ 2 ≤ (V * (V + 1) - 2) ^ 2 := by
      apply pow_le_pow_left₀ (by positivity) hcon
    rw [mul_pow, hsq] at this
    nlinarith
  refine ⟨by have : 0 < V + 1 - s := by linarith
             positivity, ?_, ?_⟩
  · have : V * (V + 1 - s) < 2 := by nlinarith
    nlinarith
  · have : 2 < V * (V + 1 + s) := by nlinarith
    nlinarith

theorem good_tian (h : TreeValid o) : Good (factors .tian o) (exp (o.b * (o.t / o.n))) := by
  have hV : 1 < exp (o.sigma ^ 2 * (o.t / o.n)) := one_lt_exp_iff.2 (mul_pos (pow_pos h.sigma 2) h.dt)
  obtain ⟨h1, h2, h3⟩ := tian_aux (exp_pos (o.b * (o.t / o.n))) hV
  exact ⟨h1, h2.trans h3, rfl⟩

theorem tian_prob (h : TreeValid o) : 0 < (factors .tian o).p ∧ (factors .tian o).p < 1 := by
  have hV : 1 < exp (o.sigma ^ 2 * (o.t / o.n)) := one_lt_exp_iff.2 (mul_pos (pow_pos h.sigma 2) h.dt)
  obtain ⟨h1, h2, h3⟩ := tian_aux (exp_pos (o.b * (o.t / o.n))) hV
  have g := good_tian h
  rw [g.p]
  have : 0 < (factors .tian o).u - (factors .tian o).d := sub_pos.2 g.lt
  constructor
  · exact div_pos (sub_pos.2 h2) this
  · rw [div_lt_one this]
    exact sub_lt_sub_right h3 _

theorem crr_prob (h : TreeValid o) (hb : |o.b| * √(o.t / o.n) ≤ o.sigma) :
    0 ≤ (factors .crr o).p ∧ (factors .crr o).p ≤ 1 := by
  have g := good_crr h
  rw [g.p]
  have hs := sqrt_pos.2 h.dt
  have hsq : √(o.t / o.n) * √(o.t / o.n) = o.t / o.n := mul_self_sqrt h.dt.le
  have key : |o.b * (o.t / o.n)| ≤ o.sigma * √(o.t / o.n) := by
    have := mul_le_mul_of_nonneg_right hb hs.le
    rwa [mul_assoc, hsq, ← abs_of_pos h.dt, ← abs_mul, abs_of_pos h.dt] at this
  obtain ⟨k1, k2⟩ := abs_le.1 key
  refine prob_mem g.lt ?_ ?_
  · rw [crr_d]; exact exp_le_exp.2 k1
  · exact exp_le_exp.2 k2

/-- Condition in API terms under which a class has probabilities in `[0,1]`. -/
def ProbOK (c : Cls) (o : Opt) : Prop := c = .crr → |o.b| * √(o.t / o.n) ≤ o.sigma

theorem prob_ok {c : Cls} (h : TreeValid o) (hp : ProbOK c o) :
    0 ≤ (factors c o).p ∧ (factors c o).p ≤ 1 := by
  cases c
  · exact crr_prob h (hp rfl)
  · constructor <;> norm_num [factors]
  · exact ⟨(tian_prob h).1.le, (tian_prob h).2.le⟩

theorem Df_eq (c : Cls) : (factors c o).Df = exp (-o.r * (o.t / o.n)) := by
  cases c <;> rfl

theorem Df_nonneg (c : Cls) : 0 ≤ (factors c o).Df := by rw [Df_eq]; positivity

theorem Df_le_one (c : Cls) (h : TreeValid o) (hr : 0 ≤ o.r) : (factors c o).Df ≤ 1 := by
  rw [Df_eq, exp_le_one_iff]
  have := h.dt
  nlinarith

theorem u_nonneg (c : Cls) (h : TreeValid o) : 0 ≤ (factors c o).u := by
  cases c
  · exact (exp_pos _).le
  · exact (exp_pos _).le
  · exact ((good_tian h).d_pos.trans (good_tian h).lt).le

theorem d_nonneg (c : Cls) (h : TreeValid o) : 0 ≤ (factors c o).d := by
  cases c
  · exact (good_crr h).d_pos.le
  · exact (exp_pos _).le
  · exact (good_tian h).d_pos.le

/-- The price is the root value of the specified value function. -/
theorem price_val {c : Cls} {am isCall : Bool} (hn : o.n ≠ 0) (hty : o.type = typeOf am)
    {V : ℕ → ℕ → ℝ} (hV : IsVal am isCall o.S o.K (factors c o).u (factors c o).d (factors c o).p
      (factors c o).Df o.n V) : price c o isCall = .ok (V 0 0) := by
  simp only [price, if_neg hn, hty]
  exact hV.roll.calcPrice

/-! JR -/

theorem jr_mean : (factors .jr o).p * (factors .jr o).u + (1 - (factors .jr o).p) * (factors .jr o).d
    = exp ((o.b - o.sigma ^ 2 / 2) * (o.t / o.n)) * cosh (o.sigma * √(o.t / o.n)) := by
  simp only [factors, sub_eq_add_neg, exp_add, cosh_eq]
  ring

/-- Trinomial factors in terms of the CRR factors with twice the steps. -/
theorem factors3_eq (h : TreeValid o) :
    let o2 := { o with n := 2 * o.n }
    let f := factors .crr o2
    let g := factors3 o
    g.u = f.u ^ 2 ∧ g.d = f.u⁻¹ ^ 2 ∧ g.pu = f.p ^ 2 ∧ g.pm = 2 * f.p * (1 - f.p) ∧
      g.pd = (1 - f.p) ^ 2 ∧ g.Df = f.Df ^ 2 := by
  intro o2 f g
  have hn : (o.n : ℝ) ≠ 0 := by exact_mod_cast h.ne
  have hdt : o.t / ((2 * o.n : ℕ) : ℝ) = o.t / o.n / 2 := by push_cast; field_simp
  have h2 : TreeValid o2 := ⟨h.t, h.sigma, by show 0 < 2 * o.n; have := h.n; omega⟩
  have hsq : √(2 * (o.t / o.n)) = 2 * √(o.t / o.n / 2) := by
    rw [show 2 * (o.t / o.n) = 2 ^ 2 * (o.t / o.n / 2) by ring, sqrt_mul (by norm_num),
      sqrt_sq (by norm_num)]
  have hu : f.u = exp (o.sigma * √(o.t / o.n / 2)) := by
    show exp (o.sigma * √(o.t / ((2 * o.n : ℕ) : ℝ))) = _
    rw [hdt]
  have hd : f.d = exp (-o.sigma * √(o.t / o.n / 2)) := by
    have : f.d = exp (-(o.sigma * √(o.t / ((2 * o.n : ℕ) : ℝ)))) := crr_d
    rw [this, hdt, neg_mul]
  have hpu : f.p = (exp (o.b * (o.t / o.n) / 2) - exp (-o.sigma * √(o.t / o.n / 2)))
    / (exp (o.sigma * √(o.t / o.n / 2)) - exp (-o.sigma * √(o.t / o.n / 2))) := by
    rw [(good_crr h2).p]
    show (exp (o.b * (o.t / ((2 * o.n : ℕ) : ℝ))) - f.d) / (f.u - f.d) = _
    rw [hu, hd, hdt, mul_div_assoc]
  have hne : f.u - f.d ≠ 0 := (sub_pos.2 (good_crr h2).lt).ne'
  have hpd : 1 - f.p = (exp (o.sigma * √(o.t / o.n / 2)) - exp (o.b * (o.t / o.n) / 2))
    / (exp (o.sigma * √(o.t / o.n / 2)) - exp (-o.sigma * √(o.t / o.n / 2))) := by
    rw [hpu]
    rw [hu, hd] at hne
    rw [eq_div_iff hne, sub_mul, div_mul_cancel₀ _ hne]; ring
  refine ⟨?_, ?_, ?_, ?_, ?_, ?_⟩
  · show exp (o.sigma * √(2 * (o.t / o.n))) = _
    rw [hu, hsq, ← exp_nat_mul]; congr 1; push_cast; ring
  · show exp (-o.sigma * √(2 * (o.t / o.n))) = _
    rw [hu, hsq, ← exp_neg, ← exp_nat_mul]; congr 1; push_cast; ring
  · rw [hpu]; rfl
  · have e : g.pm = 1 - g.pu - g.pd := rfl
    have e1 : g.pu = f.p ^ 2 := by rw [hpu]; rfl
    have e2 : g.pd = (1 - f.p) ^ 2 := by rw [hpd]; rfl
    rw [e, e1, e2]; ring
  · rw [hpd]; rfl
  · show exp (-o.r * (o.t / o.n)) = (exp (-o.r * (o.t / ((2 * o.n : ℕ) : ℝ)))) ^ 2
    rw [hdt, ← exp_nat_mul]; congr 1; push_cast; ring

end
end Verif
