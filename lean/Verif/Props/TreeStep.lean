import Verif.Spec.TreeStep
import Verif.Props.Tree
import Verif.Lemmas.TianRate

/-!
# C124: what a step of each tree reproduces

`Spec.CRRStep`, `Spec.JRStep` and `Spec.TianStep` list the conditions by which the three binomial trees are defined, in
terms of the lognormal step. Each list has exactly one solution, and the code prices on the lattice of that solution.
-/
namespace Verif.Props
open Real MeasureTheory ProbabilityTheory Verif.Spec Verif.Tree

theorem stepMoment_eq {dt : ℝ} (hdt : 0 ≤ dt) (b σ : ℝ) (k : ℕ) :
    stepMoment dt b σ k = exp (b * dt) ^ k * exp (((k:ℝ) ^ 2 - k) / 2 * (σ ^ 2 * dt)) := by
  unfold stepMoment
  have hs : (σ * √dt) ^ 2 = σ ^ 2 * dt := by rw [mul_pow, sq_sqrt hdt]
  have e : ∀ z, exp (σ * √dt * z + (b - σ ^ 2 / 2) * dt) ^ k
      = exp (b * dt) ^ k * exp ((k:ℝ) * (σ * √dt * z - (σ * √dt) ^ 2 / 2)) := fun z => by
    rw [hs, exp_nat_mul, ← mul_pow, ← exp_add]
    congr 2; ring
  simp only [e]
  rw [integral_const_mul, gauss_exp, hs]

theorem stepMoment_vals {dt : ℝ} (hdt : 0 ≤ dt) (b σ : ℝ) :
    stepMoment dt b σ 1 = exp (b * dt) ∧ stepMoment dt b σ 2 = exp (b * dt) ^ 2 * exp (σ ^ 2 * dt) ∧
      stepMoment dt b σ 3 = exp (b * dt) ^ 3 * exp (σ ^ 2 * dt) ^ 3 := by
  refine ⟨?_, ?_, ?_⟩ <;> rw [stepMoment_eq hdt]
  · norm_num
  · norm_num
  · rw [← exp_nat_mul (σ ^ 2 * dt)]; norm_num

variable {o : Opt}

theorem crr_good_step (h : TreeValid o) : CRRStep (o.t / o.n) o.b o.sigma (factors .crr o).u (factors .crr o).d (factors .crr o).p := by
  have g := good_crr h
  refine ⟨exp_pos _, ?_, log_exp _, ?_⟩
  · simp only [factors]
    rw [mul_one_div, div_self (exp_pos _).ne']
  · rw [g.mean, (stepMoment_vals h.dt.le _ _).1]

theorem crr_step_unique (h : TreeValid o) {u d p : ℝ} (hs : CRRStep (o.t / o.n) o.b o.sigma u d p) :
    u = (factors .crr o).u ∧ d = (factors .crr o).d ∧ p = (factors .crr o).p := by
  obtain ⟨h1, h2, h3, h4⟩ := hs
  have g := good_crr h
  have eu : u = (factors .crr o).u := by
    rw [← exp_log h1, h3]; rfl
  have ed : d = (factors .crr o).d := by
    have := (crr_good_step h).cancel
    rw [← eu] at this
    exact mul_left_cancel₀ h1.ne' (h2.trans this.symm)
  refine ⟨eu, ed, ?_⟩
  rw [(stepMoment_vals h.dt.le _ _).1, eu, ed, ← g.mean] at h4
  have hd := g.lt
  have : (p - (factors .crr o).p) * ((factors .crr o).u - (factors .crr o).d) = 0 := by linarith
  rcases mul_eq_zero.1 this with h5 | h5 <;> linarith

theorem jr_step (h : TreeValid o) : JRStep (o.t / o.n) o.b o.sigma (factors .jr o).u (factors .jr o).d (factors .jr o).p := by
  have hs : 0 < o.sigma * √(o.t / o.n) := mul_pos h.sigma (sqrt_pos.2 h.dt)
  have hq : (o.sigma * √(o.t / o.n)) ^ 2 = o.sigma ^ 2 * (o.t / o.n) := by rw [mul_pow, sq_sqrt h.dt.le]
  refine ⟨exp_pos _, ?_, ?_, ?_, ?_⟩
  · simp only [factors]; exact exp_lt_exp.2 (by linarith)
  · simp only [factors]; norm_num
  · simp only [factors, log_exp]; ring
  · simp only [factors, log_exp]
    rw [← hq]; ring

theorem jr_step_unique (h : TreeValid o) {u d p : ℝ} (hs : JRStep (o.t / o.n) o.b o.sigma u d p) :
    u = (factors .jr o).u ∧ d = (factors .jr o).d ∧ p = (factors .jr o).p := by
  obtain ⟨h1, h2, h3, h4, h5⟩ := hs
  have hp : p = 1 / 2 := by linarith
  have hσ : 0 < o.sigma * √(o.t / o.n) := mul_pos h.sigma (sqrt_pos.2 h.dt)
  have hq : (o.sigma * √(o.t / o.n)) ^ 2 = o.sigma ^ 2 * (o.t / o.n) := by rw [mul_pow, sq_sqrt h.dt.le]
  have hl := log_lt_log h1 h2
  rw [hp] at h4 h5
  rw [← hq] at h5
  set m := (o.b - o.sigma ^ 2 / 2) * (o.t / o.n) with hm
  set s := o.sigma * √(o.t / o.n) with hsd
  have hx : log u - m = s := by
    have e : log d - m = -(log u - m) := by linarith
    rw [e] at h5
    have h6 : (log u - m) ^ 2 = s ^ 2 := by linarith
    have h7 : 0 < log u - m := by linarith
    exact (pow_left_inj₀ h7.le hσ.le two_ne_zero).1 h6
  refine ⟨?_, ?_, hp⟩
  · rw [← exp_log (h1.trans h2), show log u = m + s by linarith]; rfl
  · rw [← exp_log h1, show log d = m - s by linarith]; rfl

theorem tian_roots {M V : ℝ} (hV : 1 < V) :
    (M * V / 2) * (V + 1 + √(V * V + 2 * V - 3)) + (M * V / 2) * (V + 1 - √(V * V + 2 * V - 3)) = M * V * (V + 1) ∧
    (M * V / 2) * (V + 1 + √(V * V + 2 * V - 3)) * ((M * V / 2) * (V + 1 - √(V * V + 2 * V - 3))) = M ^ 2 * V ^ 2 := by
  have hQ : 0 ≤ V * V + 2 * V - 3 := by nlinarith
  have hsq : √(V * V + 2 * V - 3) ^ 2 = V * V + 2 * V - 3 := sq_sqrt hQ
  constructor
  · ring
  · linear_combination -(M ^ 2 * V ^ 2 / 4) * hsq

theorem tian_step (h : TreeValid o) : TianStep (o.t / o.n) o.b o.sigma (factors .tian o).u (factors .tian o).d (factors .tian o).p := by
  have g := good_tian h
  have hV : 1 < exp (o.sigma ^ 2 * (o.t / o.n)) := one_lt_exp_iff.2 (mul_pos (pow_pos h.sigma 2) h.dt)
  obtain ⟨m1, m2, m3⟩ := stepMoment_vals h.dt.le o.b o.sigma
  obtain ⟨r1, r2⟩ := tian_roots (M := exp (o.b * (o.t / o.n))) hV
  have r1 : (factors .tian o).u + (factors .tian o).d = _ := r1
  have r2 : (factors .tian o).u * (factors .tian o).d = _ := r2
  have hm := g.mean
  refine ⟨g.lt, fun k k1 k2 => ?_⟩
  generalize (factors .tian o).u = u at *
  generalize (factors .tian o).d = d at *
  generalize (factors .tian o).p = p at *
  generalize exp (o.b * (o.t / o.n)) = M at *
  generalize exp (o.sigma ^ 2 * (o.t / o.n)) = V at *
  have e2 : p * u ^ 2 + (1 - p) * d ^ 2 = M ^ 2 * V := by
    linear_combination (u + d) * hm + M * r1 - r2
  interval_cases k
  · rw [m1, pow_one, pow_one, hm]
  · rw [m2, e2]
  · rw [m3]
    linear_combination (u + d) * e2 - u * d * hm + M ^ 2 * V * r1 - M * r2

theorem tian_step_unique (h : TreeValid o) {u d p : ℝ} (hs : TianStep (o.t / o.n) o.b o.sigma u d p) :
    u = (factors .tian o).u ∧ d = (factors .tian o).d ∧ p = (factors .tian o).p := by
  have g := good_tian h
  have hV : 1 < exp (o.sigma ^ 2 * (o.t / o.n)) := one_lt_exp_iff.2 (mul_pos (pow_pos h.sigma 2) h.dt)
  have hM := exp_pos (o.b * (o.t / o.n))
  obtain ⟨m1, m2, m3⟩ := stepMoment_vals h.dt.le o.b o.sigma
  obtain ⟨r1, r2⟩ := tian_roots (M := exp (o.b * (o.t / o.n))) hV
  have r1 : (factors .tian o).u + (factors .tian o).d = _ := r1
  have r2 : (factors .tian o).u * (factors .tian o).d = _ := r2
  have hm := g.mean
  have hlt := g.lt
  obtain ⟨hl, hk⟩ := hs
  have k1 := hk 1 le_rfl (by norm_num)
  have k2 := hk 2 (by norm_num) (by norm_num)
  have k3 := hk 3 (by norm_num) le_rfl
  rw [m1, pow_one, pow_one] at k1
  rw [m2] at k2
  rw [m3] at k3
  clear hk m1 m2 m3
  generalize (factors .tian o).u = u' at *
  generalize (factors .tian o).d = d' at *
  generalize (factors .tian o).p = p' at *
  generalize exp (o.b * (o.t / o.n)) = M at *
  generalize exp (o.sigma ^ 2 * (o.t / o.n)) = V at *
  have e1 : (u + d) * M - u * d = M ^ 2 * V := by linear_combination -(u + d) * k1 + k2
  have e2 : (u + d) * (M ^ 2 * V) - u * d * M = M ^ 3 * V ^ 3 := by
    linear_combination -(u + d) * k2 + u * d * k1 + k3
  have e3 : u + d = M * V * (V + 1) := by
    have : (M ^ 2 * (V - 1)) * (u + d) = (M ^ 2 * (V - 1)) * (M * V * (V + 1)) := by linear_combination e2 - M * e1
    exact mul_left_cancel₀ (mul_pos (pow_pos hM 2) (sub_pos.2 hV)).ne' this
  have e4 : u * d = M ^ 2 * V ^ 2 := by linear_combination M * e3 - e1
  have e5 : (u - d) ^ 2 = (u' - d') ^ 2 := by
    linear_combination (u + d + (u' + d')) * (e3 - r1) - 4 * (e4 - r2)
  have e6 : u - d = u' - d' := (pow_left_inj₀ (by linarith) (by linarith) two_ne_zero).1 e5
  have eu : u = u' := by linarith
  have ed : d = d' := by linarith
  refine ⟨eu, ed, ?_⟩
  rw [eu, ed] at k1
  have : (p - p') * (u' - d') = 0 := by linarith
  rcases mul_eq_zero.1 this with h5 | h5 <;> linarith

/-- The conditions on a step of each class. -/
def StepOf : Cls → ℝ → ℝ → ℝ → ℝ → ℝ → ℝ → Prop
  | .crr => CRRStep
  | .jr => JRStep
  | .tian => TianStep

/-- **C124.** For each binomial tree, any number of steps and valid parameters, there is exactly one step that meets the
tree's conditions. -/
theorem C124_step_exists_unique (c : Cls) {t b σ : ℝ} {n : ℕ} (ht : 0 < t) (hσ : 0 < σ) (hn : 0 < n) :
    ∃ u d p, StepOf c (t / n) b σ u d p ∧ 0 < d ∧ d < u ∧
      ∀ u' d' p', StepOf c (t / n) b σ u' d' p' → u' = u ∧ d' = d ∧ p' = p := by
  have h : TreeValid ⟨1, 1, t, 0, b, σ, "european", n⟩ := ⟨ht, hσ, hn⟩
  cases c
  · exact ⟨_, _, _, crr_good_step h, (good_crr h).d_pos, (good_crr h).lt, fun _ _ _ hs => crr_step_unique h hs⟩
  · exact ⟨_, _, _, jr_step h, (jr_step h).pos, (jr_step h).lt, fun _ _ _ hs => jr_step_unique h hs⟩
  · exact ⟨_, _, _, tian_step h, (good_tian h).d_pos, (good_tian h).lt, fun _ _ _ hs => tian_step_unique h hs⟩

/-- **C124.** The price (with the matrix of all node values) of a binomial tree is the value on the lattice whose step
meets the tree's conditions, discounted at the rate `r`, for European and American options. -/
theorem C124_price (c : Cls) {S K t r b σ : ℝ} {n : ℕ} (ht : 0 < t) (hσ : 0 < σ) (hn : 0 < n) {u d p : ℝ}
    (hs : StepOf c (t / n) b σ u d p) (isCall american : Bool) :
    ∃ V M, (if american then IsAmerican isCall S K u d p (exp (-r * (t / n))) n V
        else IsEuropean isCall S K u d p (exp (-r * (t / n))) n V) ∧
      priceTree c ⟨S, K, t, r, b, σ, if american then "american" else "european", n⟩ isCall = .ok M ∧
      price c ⟨S, K, t, r, b, σ, if american then "american" else "european", n⟩ isCall = .ok (V 0 0) ∧
      ∀ a ≤ n, ∀ j ≤ n, M.entry a j = if a ≤ j then V j (j - a) else 0 := by
  set o : Opt := ⟨S, K, t, r, b, σ, if american then "american" else "european", n⟩ with ho
  have h : TreeValid o := ⟨ht, hσ, hn⟩
  obtain ⟨rfl, rfl, rfl⟩ : u = (factors c o).u ∧ d = (factors c o).d ∧ p = (factors c o).p := by
    cases c
    · exact crr_step_unique h hs
    · exact jr_step_unique h hs
    · exact tian_step_unique h hs
  have hD : exp (-r * (t / n)) = (factors c o).Df := by cases c <;> rfl
  rw [hD]
  have fin : ∀ {V : ℕ → ℕ → ℝ} {M : Py.Mat ℝ}, priceTree c o isCall = .ok M → M.rows = n + 1 → M.cols = n + 1 →
      (∀ a ≤ n, ∀ j ≤ n, M.entry a j = if a ≤ j then V j (j - a) else 0) → price c o isCall = M.get 0 0 →
      price c o isCall = .ok (V 0 0) := fun {V M} _ h3 h4 h5 h6 => by
    rw [h6]
    simp [Py.Mat.get, h3, h4, h5 0 (by omega) 0 (by omega)]
  cases american
  · obtain ⟨V, M, h1, h2, h3, h4, h5, h6⟩ := C20_tree_european c o hn rfl isCall
    exact ⟨V, M, h1, h2, fin h2 h3 h4 h5 h6, h5⟩
  · obtain ⟨V, M, h1, h2, h3, h4, h5, h6⟩ := C20_tree_american c o hn rfl isCall
    exact ⟨V, M, h1, h2, fin h2 h3 h4 h5 h6, h5⟩

/-- **C124.** A step of the trinomial tree is two Cox–Ross–Rubinstein steps of half the length: the price (with the
matrix of all node values) is the value on that lattice, for European and American options. -/
theorem C124_trinomial {S K t r b σ : ℝ} {n : ℕ} (ht : 0 < t) (hσ : 0 < σ) (hn : 0 < n) {u d p : ℝ}
    (hs : CRRStep (t / n / 2) b σ u d p) (isCall american : Bool) :
    ∃ V M, (if american
        then IsAmerican3 isCall S K (u ^ 2) (d ^ 2) (p ^ 2) (2 * p * (1 - p)) ((1 - p) ^ 2) (exp (-r * (t / n))) n V
        else IsEuropean3 isCall S K (u ^ 2) (d ^ 2) (p ^ 2) (2 * p * (1 - p)) ((1 - p) ^ 2) (exp (-r * (t / n))) n V) ∧
      priceTree3 ⟨S, K, t, r, b, σ, if american then "american" else "european", n⟩ isCall = .ok M ∧
      price3 ⟨S, K, t, r, b, σ, if american then "american" else "european", n⟩ isCall = .ok (V 0 0) ∧
      ∀ a ≤ 2 * n, ∀ i ≤ n, M.entry a i = if n - i ≤ a ∧ a ≤ n + i then V i (n + i - a) else 0 := by
  set o : Opt := ⟨S, K, t, r, b, σ, if american then "american" else "european", n⟩ with ho
  have hdt : 0 < t / n := div_pos ht (Nat.cast_pos.2 hn)
  have hdt2 : 0 < t / n / 2 := by positivity
  obtain ⟨h1, h2, h3, h4⟩ := hs
  rw [(stepMoment_vals hdt2.le _ _).1] at h4
  have hs0 : 0 < σ * √(t / n / 2) := mul_pos hσ (sqrt_pos.2 hdt2)
  have eu : u = exp (σ * √(t / n / 2)) := by rw [← h3, exp_log h1]
  have ed : d = exp (-σ * √(t / n / 2)) := by
    rw [neg_mul, exp_neg, ← eu]; exact eq_inv_of_mul_eq_one_right h2
  have hlt : d < u := by rw [eu, ed]; exact exp_lt_exp.2 (by linarith)
  have hne : u - d ≠ 0 := (sub_pos.2 hlt).ne'
  have hsq : √(2 * (t / n)) = 2 * √(t / n / 2) := by
    rw [show 2 * (t / n) = 2 ^ 2 * (t / n / 2) by ring, sqrt_mul (by positivity), sqrt_sq (by norm_num)]
  have fu : u ^ 2 = (factors3 o).u := by
    rw [eu, ← exp_nat_mul]; simp only [factors3, ho, hsq]; congr 1; push_cast; ring
  have fd : d ^ 2 = (factors3 o).d := by
    rw [ed, ← exp_nat_mul]; simp only [factors3, ho, hsq]; congr 1; push_cast; ring
  have hb : b * (t / n) / 2 = b * (t / n / 2) := by ring
  have fpu : p ^ 2 = (factors3 o).pu := by
    simp only [factors3, ho, hb, ← eu, ← ed]
    congr 1; rw [eq_div_iff hne]; linarith
  have fpd : (1 - p) ^ 2 = (factors3 o).pd := by
    simp only [factors3, ho, hb, ← eu, ← ed]
    congr 1; rw [eq_div_iff hne]; linarith
  have fpm : 2 * p * (1 - p) = (factors3 o).pm := by
    have : (factors3 o).pm = 1 - (factors3 o).pu - (factors3 o).pd := rfl
    rw [this, ← fpu, ← fpd]; ring
  have hD : exp (-r * (t / n)) = (factors3 o).Df := rfl
  rw [hD, fu, fd, fpu, fpd, fpm]
  cases american
  · obtain ⟨V, hV⟩ := exists_european3 isCall S K (factors3 o).u (factors3 o).d (factors3 o).pu (factors3 o).pm
      (factors3 o).pd (factors3 o).Df n
    obtain ⟨M, g1, -, -, g4⟩ := (roll3_euro hV).calcTree
    refine ⟨V, M, hV, ?_, price3_euro (o := o) hn rfl isCall hV, g4⟩
    simp only [priceTree3, ho, if_neg hn.ne']; exact g1
  · obtain ⟨V, hV⟩ := exists_american3 isCall S K (factors3 o).u (factors3 o).d (factors3 o).pu (factors3 o).pm
      (factors3 o).pd (factors3 o).Df n
    obtain ⟨M, g1, -, -, g4⟩ := (roll3_amer hV).calcTree
    refine ⟨V, M, hV, ?_, price3_amer (o := o) hn rfl isCall hV, g4⟩
    simp only [priceTree3, ho, if_neg hn.ne']; exact g1

/-- **C124, what the trees miss.** The mean of a Jarrow–Rudd step is below the forward, which both other trees reproduce. -/
theorem C124_jr_mean {dt b σ u d p : ℝ} (hdt : 0 < dt) (hσ : 0 < σ) (h : JRStep dt b σ u d p) :
    p * u + (1 - p) * d < stepMoment dt b σ 1 := by
  have ho : TreeValid ⟨1, 1, dt, 0, b, σ, "european", 1⟩ := ⟨hdt, hσ, one_pos⟩
  obtain ⟨rfl, rfl, rfl⟩ := jr_step_unique (o := ⟨1, 1, dt, 0, b, σ, "european", 1⟩) ho (by simpa using h)
  rw [(stepMoment_vals hdt.le _ _).1]
  simp only [factors, Nat.cast_one, div_one]
  have hs : 0 < σ * √dt := mul_pos hσ (sqrt_pos.2 hdt)
  have hq : (σ * √dt) ^ 2 = σ ^ 2 * dt := by rw [mul_pow, sq_sqrt hdt.le]
  have hc : cosh (σ * √dt) < exp ((σ * √dt) ^ 2 / 2) := by
    set z := σ * √dt
    have e1 : cosh z = 2 * cosh (z / 2) ^ 2 - 1 := by
      have := cosh_sq (z / 2)
      rw [show z = 2 * (z / 2) by ring, cosh_two_mul, show 2 * (z / 2) / 2 = z / 2 by ring]; linarith
    have e2 : cosh (z / 2) ^ 2 ≤ exp (z ^ 2 / 4) := by
      have := pow_le_pow_left₀ (cosh_pos _).le (cosh_le_exp_half_sq (z / 2)) 2
      rwa [← exp_nat_mul, show ((2 : ℕ) : ℝ) * ((z / 2) ^ 2 / 2) = z ^ 2 / 4 by push_cast; ring] at this
    have e3 : exp (z ^ 2 / 2) = exp (z ^ 2 / 4) ^ 2 := by rw [← exp_nat_mul]; congr 1; push_cast; ring
    have e4 : 1 < exp (z ^ 2 / 4) := by rw [one_lt_exp_iff]; positivity
    rw [e1, e3]; nlinarith
  rw [exp_add, sub_eq_add_neg ((b - σ ^ 2 / 2) * dt), exp_add]
  rw [cosh_eq] at hc
  have e : exp (b * dt) = exp ((b - σ ^ 2 / 2) * dt) * exp ((σ * √dt) ^ 2 / 2) := by
    rw [← exp_add, hq]; congr 1; ring
  rw [e]
  have := mul_lt_mul_of_pos_left hc (exp_pos ((b - σ ^ 2 / 2) * dt))
  linarith

/-- Non-vacuous: for the five-step example the steps exist, and the American put is priced on them. -/
theorem C124_example : ∃ u d p V, TianStep ((5 / 12 : ℝ) / (5:ℕ)) (1 / 10) (2 / 5) u d p ∧
    IsAmerican false 50 50 u d p (exp (-(1 / 10) * ((5 / 12 : ℝ) / (5:ℕ)))) 5 V ∧
    price .tian ⟨50, 50, 5 / 12, 1 / 10, 1 / 10, 2 / 5, "american", 5⟩ false = .ok (V 0 0) := by
  obtain ⟨u, d, p, hs, -⟩ := C124_step_exists_unique .tian (t := 5 / 12) (b := 1 / 10) (σ := 2 / 5) (n := 5) (by norm_num)
    (by norm_num) (by norm_num)
  obtain ⟨V, M, h1, -, h3, -⟩ := C124_price .tian (S := 50) (K := 50) (r := 1 / 10) (t := 5 / 12) (by norm_num) (by norm_num)
    (by norm_num) hs false true
  exact ⟨u, d, p, V, hs, by simpa using h1, by simpa using h3⟩

end Verif.Props
