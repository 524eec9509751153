import Verif.Lemmas.TwoAssetLimit
import Verif.Lemmas.Margrabe
import Verif.Props.Tree3d
import Verif.Props.Kirk
import Verif.Props.GBSAccuracy

/-!
C69, C70: prices of the two-asset binomial lattice converge to the two-asset lognormal value, and for the exchange of two
assets to Margrabe's value, which `KirkSpread` with zero strike returns up to its normal approximation.
-/
namespace Verif.Props
open Verif Verif.Spec Verif.Spec.TwoAsset Real MeasureTheory ProbabilityTheory Filter _root_.Verif.Tree3d Py
open _root_.Verif.Tree (zOf)
open scoped Topology

/-- The assets of an option. -/
def assetsOf (o : Opt) : Assets := ⟨o.S1, o.S2, o.b1, o.b2, o.sigma1, o.sigma2, o.rho⟩

theorem binW_half (n k : ℕ) (hk : k ≤ n) : binW n (1 / 2) k = (n.choose k : ℝ) / 2 ^ n := by
  rw [binW, show (1 - 1 / 2 : ℝ) = 1 / 2 by norm_num, mul_assoc, ← pow_add, Nat.add_sub_cancel' hk, one_div, inv_pow,
    div_eq_mul_inv]

/-- Growth of the integrand. -/
theorem growth_sq {f : ℝ → ℝ → ℝ} (h0 : ∀ x y, 0 ≤ f x y) {A : ℝ} (hA : ∀ x y, f x y ≤ A * (1 + x ^ 2 + y ^ 2))
    (x y : ℝ) : f x y ^ 2 ≤ 3 * A ^ 2 * (1 + x ^ 4 + y ^ 4) := by
  have h1 : f x y ^ 2 ≤ (A * (1 + x ^ 2 + y ^ 2)) ^ 2 := pow_le_pow_left₀ (h0 x y) (hA x y) 2
  refine h1.trans ?_
  rw [mul_pow]
  have : (1 + x ^ 2 + y ^ 2) ^ 2 ≤ 3 * (1 + x ^ 4 + y ^ 4) := by
    nlinarith [sq_nonneg (x ^ 2 - 1), sq_nonneg (y ^ 2 - 1), sq_nonneg (x ^ 2 - y ^ 2)]
  nlinarith [sq_nonneg A]

/-- **C69.** Let `f` be the payoff of a two-asset option, continuous, nonnegative and of at most quadratic growth. The
European prices for `n = 1, 2, …` steps exist and converge to the discounted expectation of `f` of the two
correlated lognormal prices. -/
theorem C69_limit (o : Opt) (ht : 0 ≤ o.t) (hE : o.otype ≠ "american") (isCall : Bool) (f : ℝ → ℝ → ℝ)
    (hf : PaysOff o isCall f) (hc : Continuous (Function.uncurry f)) (h0 : ∀ x y, 0 ≤ f x y) {A : ℝ}
    (hA : ∀ x y, f x y ≤ A * (1 + x ^ 2 + y ^ 2)) :
    ∃ x : ℕ → ℝ, (∀ n > 0, price { o with n := n } isCall = .ok (x n)) ∧
      Tendsto x atTop (𝓝 ((assetsOf o).value o.t o.r f)) := by
  let F : ℝ × ℝ → ℝ := fun z => f ((assetsOf o).first o.t z) ((assetsOf o).second o.t z)
  have c1 : Continuous ((assetsOf o).first o.t) := by unfold Assets.first; fun_prop
  have c2 : Continuous ((assetsOf o).second o.t) := by unfold Assets.second; fun_prop
  have hF : Continuous F := hc.comp (c1.prodMk c2)
  have hlim := walks_expect hF (fun z => h0 _ _) (Finset.univ : Finset (Fin 3))
    ![3 * A ^ 2, 3 * A ^ 2 * (o.S1 ^ 4 * exp (4 * ((o.b1 - o.sigma1 ^ 2 / 2) * o.t))),
      3 * A ^ 2 * (o.S2 ^ 4 * exp (4 * ((o.b2 - o.sigma2 ^ 2 / 2) * o.t)))]
    ![0, 4 * (o.sigma1 * √o.t), 4 * (o.sigma2 * √o.t * o.rho)] ![0, 0, 4 * (o.sigma2 * √o.t * √(1 - o.rho ^ 2))]
    (fun z => by
      refine (growth_sq h0 hA _ _).trans (le_of_eq ?_)
      simp only [Fin.sum_univ_three, Matrix.cons_val, assetsOf, Assets.first, Assets.second, mul_pow, ← exp_nat_mul]
      have e1 : exp (((4 : ℕ) : ℝ) * ((o.b1 - o.sigma1 ^ 2 / 2) * o.t + o.sigma1 * √o.t * z.1))
          = exp (4 * ((o.b1 - o.sigma1 ^ 2 / 2) * o.t)) * exp (4 * (o.sigma1 * √o.t) * z.1 + 0 * z.2) := by
        rw [← exp_add]; congr 1; push_cast; ring
      have e2 : exp (((4 : ℕ) : ℝ) * ((o.b2 - o.sigma2 ^ 2 / 2) * o.t
            + o.sigma2 * √o.t * (o.rho * z.1 + √(1 - o.rho ^ 2) * z.2)))
          = exp (4 * ((o.b2 - o.sigma2 ^ 2 / 2) * o.t)) * exp (4 * (o.sigma2 * √o.t * o.rho) * z.1
            + 4 * (o.sigma2 * √o.t * √(1 - o.rho ^ 2)) * z.2) := by
        rw [← exp_add]; congr 1; push_cast; ring
      rw [e1, e2]
      simp only [zero_mul, add_zero, exp_zero]
      ring)
  refine ⟨fun n => TwoAsset.average (exp (-o.r * (o.t / n))) n
    (fun j i => f (asset1 { o with n := n } n j) (asset2 { o with n := n } n j i)), fun n hn => ?_, ?_⟩
  · obtain ⟨V, hV⟩ := exists_value (fun m j i => f (asset1 { o with n := n } m j) (asset2 { o with n := n } m j i))
      (o.otype = "american") (exp (-o.r * (o.t / n))) n
    rw [price_eq (o := { o with n := n }) hn hf hV]
    simp only [hE, decide_false] at hV
    rw [value_european hV 0 (by omega) 0 le_rfl 0 le_rfl]
    simp only [zero_add, Nat.sub_zero]
  · refine (hlim.const_mul (exp (-o.r * o.t))).congr' ?_
    filter_upwards [eventually_gt_atTop 0] with n hn
    have hn0 : (n : ℝ) ≠ 0 := by exact_mod_cast hn.ne'
    rw [walks_integral, TwoAsset.average, exp_div_pow _ _ hn.ne', mul_div_assoc]
    congr 1
    rw [Finset.sum_div]
    refine Finset.sum_congr rfl fun j hj => ?_
    rw [Finset.sum_div]
    refine Finset.sum_congr rfl fun i hi => ?_
    have hj : j ≤ n := by have := Finset.mem_range.1 hj; omega
    have hi : i ≤ n := by have := Finset.mem_range.1 hi; omega
    rw [binW_half n j hj, binW_half n i hi]
    have hsq : √(o.t / n) = √o.t * √(1 / n) := by rw [← Real.sqrt_mul ht, mul_one_div]
    have hdt : (n : ℝ) * (o.t / n) = o.t := mul_div_cancel₀ _ hn0
    have a1 : asset1 { o with n := n } n j = (assetsOf o).first o.t ((2 * j - n) * √(1 / n), (2 * i - n) * √(1 / n)) := by
      simp only [asset1, assetsOf, Assets.first, hdt, hsq]
      congr 3; ring
    have a2 : asset2 { o with n := n } n j i
        = (assetsOf o).second o.t ((2 * j - n) * √(1 / n), (2 * i - n) * √(1 / n)) := by
      simp only [asset2, assetsOf, Assets.second, hdt, hsq]
      congr 3; ring
    rw [a1, a2, show (4 : ℝ) ^ n = 2 ^ n * 2 ^ n by rw [← mul_pow]; norm_num]
    have : (2 : ℝ) ^ n ≠ 0 := by positivity
    field_simp
    rfl

/-- Growth of the documented payoffs. -/
theorem documented_growth {k : ℕ} (hk : k ≠ 8) (isCall : Bool) (x y K K2 : ℝ) :
    0 ≤ documented k isCall x y K K2 ∧ documented k isCall x y K K2 ≤ 1 + x ^ 2 + y ^ 2 + |K| + |K2| := by
  have hx1 : x ≤ (1 + x ^ 2) / 2 := by nlinarith [sq_nonneg (x - 1)]
  have hx2 : -x ≤ (1 + x ^ 2) / 2 := by nlinarith [sq_nonneg (x + 1)]
  have hy1 : y ≤ (1 + y ^ 2) / 2 := by nlinarith [sq_nonneg (y - 1)]
  have hy2 : -y ≤ (1 + y ^ 2) / 2 := by nlinarith [sq_nonneg (y + 1)]
  have h1 : x * y ≤ (x ^ 2 + y ^ 2) / 2 := by nlinarith [sq_nonneg (x - y)]
  have h2 : -(x * y) ≤ (x ^ 2 + y ^ 2) / 2 := by nlinarith [sq_nonneg (x + y)]
  have k1 := le_abs_self K
  have k2 := neg_le_abs K
  have k3 := le_abs_self K2
  have k4 := neg_le_abs K2
  have x0 := sq_nonneg x
  have y0 := sq_nonneg y
  have hB : 0 ≤ 1 + x ^ 2 + y ^ 2 + |K| + |K2| := by positivity
  unfold documented
  split <;> first
    | exact absurd rfl hk
    | exact ⟨le_rfl, hB⟩
    | refine ⟨le_max_left _ _, max_le hB ?_⟩
  all_goals first
    | linarith [abs_nonneg K, abs_nonneg K2]
    | exact max_le (by linarith [abs_nonneg K, abs_nonneg K2]) (by linarith [abs_nonneg K, abs_nonneg K2])
    | (rcases le_total x y with h | h <;> simp only [max_eq_left h, max_eq_right h, min_eq_left h, min_eq_right h] <;>
        linarith [abs_nonneg K, abs_nonneg K2])

theorem documented_cont {k : ℕ} (hk : k ≠ 8) (isCall : Bool) (Q1 Q2 K K2 : ℝ) :
    Continuous (Function.uncurry fun x y => documented k isCall (Q1 * x) (Q2 * y) K K2) := by
  simp only [Function.uncurry_def]
  rcases isCall with _ | _
  all_goals
    by_cases hk10 : k < 10
    · interval_cases k <;> first
        | exact absurd rfl hk
        | (simp only [documented]; fun_prop)
    · have : ∀ (b : Bool) (x y : ℝ), documented k b x y K K2 = 0 := by
        intro b x y
        unfold documented
        split <;> first | omega | rfl
      simp only [this]
      exact continuous_const

/-- **C69** for the payoffs the code evaluates as documented (`C31_payoffs_partial`): every option number except the
relative-performance option (8) and the put of the exchange option (7). The limit is the two-asset value of the
documented payoff. -/
theorem C69_documented (o : Opt) (ht : 0 ≤ o.t) (hE : o.otype ≠ "american") (isCall : Bool)
    (hs : HasStrikes o.option o.K o.K2) (h8 : o.option ≠ .outperformance)
    (h7 : o.option = .exchange → isCall = true) :
    ∃ x : ℕ → ℝ, (∀ n > 0, price { o with n := n } isCall = .ok (x n)) ∧
      Tendsto x atTop (𝓝 ((assetsOf o).value o.t o.r fun x y =>
        documented o.option.number isCall (o.Q1 * x) (o.Q2 * y) (o.K.getD 0) (o.K2.getD 0))) := by
  have hk : o.option.number ≠ 8 := by revert h8; cases o.option <;> simp [Code.number]
  refine C69_limit o ht hE isCall _ (fun x y => C31_payoffs_partial _ _ _ _ _ _ _ _ hs h8 h7)
    (documented_cont hk _ _ _ _ _) (fun x y => (documented_growth hk _ _ _ _ _).1)
    (A := 1 + o.Q1 ^ 2 + o.Q2 ^ 2 + |o.K.getD 0| + |o.K2.getD 0|) (fun x y => ?_)
  refine (documented_growth hk _ _ _ _ _).2.trans ?_
  rw [mul_pow, mul_pow]
  nlinarith [sq_nonneg x, sq_nonneg y, mul_nonneg (sq_nonneg o.Q1) (sq_nonneg y), mul_nonneg (sq_nonneg o.Q2) (sq_nonneg x),
      mul_nonneg (sq_nonneg o.Q1) (sq_nonneg x), mul_nonneg (sq_nonneg o.Q2) (sq_nonneg y), sq_nonneg o.Q1, sq_nonneg o.Q2,
      mul_nonneg (abs_nonneg (o.K.getD 0)) (sq_nonneg x), mul_nonneg (abs_nonneg (o.K.getD 0)) (sq_nonneg y),
      mul_nonneg (abs_nonneg (o.K2.getD 0)) (sq_nonneg x), mul_nonneg (abs_nonneg (o.K2.getD 0)) (sq_nonneg y)]

/-- **C70.** Exchange of two assets. The spread call with strike zero on the two-asset lattice converges to Margrabe's
value: Black–Scholes on the ratio of the two assets. -/
theorem C70_margrabe (o : Opt) (ht : 0 ≤ o.t) (hE : o.otype ≠ "american") (hopt : o.option = .spread) (hK : o.K = some 0)
    (h2 : 0 < o.Q2 * o.S2) (hρ : |o.rho| ≤ 1) :
    ∃ x : ℕ → ℝ, (∀ n > 0, price { o with n := n } true = .ok (x n)) ∧
      Tendsto x atTop (𝓝 (bsCall (o.Q1 * o.S1) (o.Q2 * o.S2) o.t (o.r - o.b2) (o.b1 - o.b2)
        √(o.sigma1 ^ 2 + o.sigma2 ^ 2 - 2 * o.rho * o.sigma1 * o.sigma2))) := by
  obtain ⟨x, hx, hl⟩ := C69_documented o ht hE true ⟨fun _ => by simp [hK], by simp [hopt]⟩ (by simp [hopt]) (by simp)
  refine ⟨x, hx, hl.trans (le_of_eq ?_)⟩
  congr 1
  have hm := margrabe (assetsOf o) ht o.r o.Q1 o.Q2 √(o.sigma1 ^ 2 + o.sigma2 ^ 2 - 2 * o.rho * o.sigma1 * o.sigma2) h2 hρ
    (sq_sqrt (ratioVar_nonneg hρ o.sigma1 o.sigma2))
  rw [show bsCall (o.Q1 * o.S1) (o.Q2 * o.S2) o.t (o.r - o.b2) (o.b1 - o.b2)
        √(o.sigma1 ^ 2 + o.sigma2 ^ 2 - 2 * o.rho * o.sigma1 * o.sigma2) = _ from hm.symm]
  congr 1
  funext x y
  simp [documented, hopt, hK, Code.number, max_comm]

/-- **C70** across classes. `KirkSpread` with strike zero returns the limit of the lattice prices up to the error of the
`CND` approximation. -/
theorem C70_kirk_is_limit (o : Opt) (ht : 0 < o.t) (hE : o.otype ≠ "american") (hopt : o.option = .spread)
    (hK : o.K = some 0) (h1 : 0 < o.Q1 * o.S1) (h2 : 0 < o.Q2 * o.S2) (hρ : |o.rho| ≤ 1)
    (hv : 0 < o.sigma1 ^ 2 + o.sigma2 ^ 2 - 2 * o.rho * o.sigma1 * o.sigma2) :
    ∃ a c L, ∃ x : ℕ → ℝ,
      kirkCls.construct (kirkKw o.S1 o.S2 0 o.t o.r o.b1 o.b2 o.sigma1 o.sigma2 o.rho o.Q1 o.Q2) = (a, none) ∧
      KirkClass.call.run a = .ok (.num c) ∧ (∀ n > 0, price { o with n := n } true = .ok (x n)) ∧
      Tendsto x atTop (𝓝 L) ∧
      |c - L| ≤ 7.5e-8 * (o.Q1 * o.S1 * exp ((o.b1 - o.r) * o.t) + o.Q2 * o.S2 * exp ((o.b2 - o.r) * o.t)) := by
  obtain ⟨x, hx, hl⟩ := C70_margrabe o ht.le hE hopt hK h2 hρ
  obtain ⟨a, c, p, ha, hc, -, hg, -⟩ := C42_exchange o.S1 o.S2 o.t o.r o.b1 o.b2 o.sigma1 o.sigma2 o.rho o.Q1 o.Q2 h1 h2
  obtain ⟨c', hc', he⟩ := C02_price_accuracy (S := o.Q1 * o.S1) (K := o.Q2 * o.S2) (t := o.t)
    (σ := √(o.sigma1 ^ 2 + o.sigma2 ^ 2 - 2 * o.rho * o.sigma1 * o.sigma2)) ⟨h1, h2, ht, sqrt_pos.2 hv⟩ (o.r - o.b2)
    (o.b1 - o.b2) true
  have hcc : c' = c := by
    have : (Except.ok c' : Except PyErr ℝ) = .ok c := hc'.symm.trans hg
    exact Except.ok.inj this
  refine ⟨a, c, _, x, ha, hc, hx, hl, ?_⟩
  rw [hcc] at he
  refine he.trans (le_of_eq ?_)
  congr 3
  · congr 2; ring
  · congr 2; ring

/-- The hypotheses are met by the documented spread option with its strike set to zero. -/
example : ∃ a c L, ∃ x : ℕ → ℝ,
    kirkCls.construct (kirkKw 122 120 0 (1 / 10) (1 / 10) 0 0 (1 / 5) (1 / 5) (-1 / 2) 1 1) = (a, none) ∧
    KirkClass.call.run a = .ok (.num c) ∧
    (∀ n > 0, price { exampleSpread "european" with K := some 0, n := n } true = .ok (x n)) ∧
    Tendsto x atTop (𝓝 L) ∧ |c - L| ≤ 7.5e-8 * (1 * 122 * exp ((0 - 1 / 10) * (1 / 10)) + 1 * 120 * exp ((0 - 1 / 10) * (1 / 10))) :=
  C70_kirk_is_limit { exampleSpread "european" with K := some 0 } (by norm_num [exampleSpread]) (by simp [exampleSpread])
    rfl rfl (by norm_num [exampleSpread]) (by norm_num [exampleSpread])
    (by rw [abs_le]; norm_num [exampleSpread]) (by norm_num [exampleSpread])

end Verif.Props
