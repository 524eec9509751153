import Verif.Lemmas.TreeReal
import Verif.Lemmas.TreePlot
import Mathlib.Analysis.SpecialFunctions.Trigonometric.Series

/-! C18–C28: binomial and trinomial tree options. -/
namespace Verif.Props
open Real Spec _root_.Verif.Tree Py

/-- The documented example `CRRBinomialTreeOption(S=50, K=50, t=5/12, r=0.1, b=0.1, sigma=0.4, n=5,
type='american')`. -/
noncomputable def exampleTree (type : String) : Opt :=
  ⟨50, 50, 5 / 12, 1 / 10, 1 / 10, 2 / 5, type, 5⟩

theorem exampleTree_valid (type : String) : TreeValid (exampleTree type) :=
  ⟨by norm_num [exampleTree], by norm_num [exampleTree], by norm_num [exampleTree]⟩

theorem exampleTree_prob (c : Cls) (type : String) : ProbOK c (exampleTree type) := by
  intro _
  have h : √((5 / 12 : ℝ) / ((5 : ℕ) : ℝ)) ≤ 1 := by
    rw [sqrt_le_one]; norm_num
  have : |(1 / 10 : ℝ)| = 1 / 10 := abs_of_pos (by norm_num)
  simp only [exampleTree]
  rw [this]; linarith

/-! ### C18 -/

/-- C18. The price returned by the in-place rollback of a European CRR tree is the discounted binomial
expectation of the payoff. -/
theorem C18_crr (S K t r b σ : ℝ) (n : ℕ) (hn : 0 < n) (isCall : Bool) (u d p D : ℝ)
    (hu : u = exp (σ * √(t / n))) (hd : d = 1 / u) (hp : p = (exp (b * (t / n)) - d) / (u - d))
    (hD : D = exp (-r * (t / n))) :
    price .crr ⟨S, K, t, r, b, σ, "european", n⟩ isCall
      = .ok (D ^ n * ∑ k ∈ Finset.range (n + 1), (n.choose k : ℝ) * p ^ k * (1 - p) ^ (n - k)
          * payoff isCall (S * u ^ k * d ^ (n - k)) K) := by
  obtain ⟨V, hV⟩ := exists_val false isCall S K u d p D n
  subst hD hp hd hu
  rw [price_val (am := false) (V := V) hn.ne' rfl hV, IsEuropean.value hV.european 0 (by omega) 0 le_rfl]
  simp [binomialExpectation, node]

/-- C18 for the Jarrow–Rudd tree. -/
theorem C18_jr (S K t r b σ : ℝ) (n : ℕ) (hn : 0 < n) (isCall : Bool) (u d D : ℝ)
    (hu : u = exp ((b - σ ^ 2 / 2) * (t / n) + σ * √(t / n)))
    (hd : d = exp ((b - σ ^ 2 / 2) * (t / n) - σ * √(t / n)))
    (hD : D = exp (-r * (t / n))) :
    price .jr ⟨S, K, t, r, b, σ, "european", n⟩ isCall
      = .ok (D ^ n * ∑ k ∈ Finset.range (n + 1), (n.choose k : ℝ) * (1 / 2) ^ k * (1 / 2) ^ (n - k)
          * payoff isCall (S * u ^ k * d ^ (n - k)) K) := by
  obtain ⟨V, hV⟩ := exists_val false isCall S K u d (1 / 2) D n
  subst hD hd hu
  rw [price_val (am := false) (V := V) hn.ne' rfl hV, IsEuropean.value hV.european 0 (by omega) 0 le_rfl]
  have : (1 : ℝ) - 1 / 2 = 1 / 2 := by norm_num
  simp [binomialExpectation, node, -one_div, this]

/-- C18 for the Tian tree. -/
theorem C18_tian (S K t r b σ : ℝ) (n : ℕ) (hn : 0 < n) (isCall : Bool) (M V u d p D : ℝ)
    (hM : M = exp (b * (t / n))) (hV : V = exp (σ ^ 2 * (t / n)))
    (hu : u = M * V / 2 * (V + 1 + √(V * V + 2 * V - 3)))
    (hd : d = M * V / 2 * (V + 1 - √(V * V + 2 * V - 3))) (hp : p = (M - d) / (u - d))
    (hD : D = exp (-r * (t / n))) :
    price .tian ⟨S, K, t, r, b, σ, "european", n⟩ isCall
      = .ok (D ^ n * ∑ k ∈ Finset.range (n + 1), (n.choose k : ℝ) * p ^ k * (1 - p) ^ (n - k)
          * payoff isCall (S * u ^ k * d ^ (n - k)) K) := by
  obtain ⟨W, hW⟩ := exists_val false isCall S K u d p D n
  subst hD hp hd hu hV hM
  rw [price_val (am := false) (V := W) hn.ne' rfl hW, IsEuropean.value hW.european 0 (by omega) 0 le_rfl]
  simp [binomialExpectation, node]

/-- The three formulas are instances of the expectation with the class's factors. -/
theorem european_price (c : Cls) (o : Opt) (hn : 0 < o.n) (hty : o.type = "european") (isCall : Bool) :
    price c o isCall = .ok (binomialExpectation (factors c o).Df (factors c o).p o.n
      (fun k => payoff isCall (node o.S (factors c o).u (factors c o).d o.n k) o.K)) := by
  obtain ⟨V, hV⟩ := exists_val false isCall o.S o.K (factors c o).u (factors c o).d (factors c o).p
    (factors c o).Df o.n
  rw [price_val (am := false) (V := V) hn.ne' hty hV, IsEuropean.value hV.european 0 (by omega) 0 le_rfl]
  simp

/-! ### C19 -/

/-- Parity for any class in terms of its one-step mean. -/
theorem parity_mean (c : Cls) (o : Opt) (hn : 0 < o.n) (hty : o.type = "european") :
    ∃ x y, price c o true = .ok x ∧ price c o false = .ok y ∧
      x - y = o.S * ((factors c o).Df * ((factors c o).p * (factors c o).u
        + (1 - (factors c o).p) * (factors c o).d)) ^ o.n - o.K * (factors c o).Df ^ o.n := by
  refine ⟨_, _, european_price c o hn hty true, european_price c o hn hty false, ?_⟩
  rw [binomialExpectation_sub]
  simp only [payoff_sub]
  rw [binomialExpectation_affine]

/-- C19. European put-call parity holds exactly on CRR and TIAN trees, for every number of steps. -/
theorem C19_parity (c : Cls) (hc : c = .crr ∨ c = .tian) (o : Opt) (h : TreeValid o)
    (hty : o.type = "european") :
    ∃ x y, price c o true = .ok x ∧ price c o false = .ok y ∧
      x - y = o.S * exp ((o.b - o.r) * o.t) - o.K * exp (-o.r * o.t) := by
  obtain ⟨x, y, hx, hy, he⟩ := parity_mean c o h.n hty
  refine ⟨x, y, hx, hy, he.trans ?_⟩
  have hm : (factors c o).p * (factors c o).u + (1 - (factors c o).p) * (factors c o).d
      = exp (o.b * (o.t / o.n)) := by
    rcases hc with rfl | rfl
    · exact (good_crr h).mean
    · exact (good_tian h).mean
  rw [hm, Df_eq, mul_pow, exp_div_pow _ _ h.ne, exp_div_pow _ _ h.ne, ← exp_add]
  congr 3; ring

example : TreeValid (exampleTree "european") := exampleTree_valid _

/-- C19 (finding). On JR trees the forward is `S (e^{(b-σ²/2-r)dt} cosh(σ√dt))ⁿ` … -/
theorem C19_jr_forward (o : Opt) (h : TreeValid o) (hty : o.type = "european") :
    ∃ x y, price .jr o true = .ok x ∧ price .jr o false = .ok y ∧
      x - y = o.S * (exp ((o.b - o.sigma ^ 2 / 2 - o.r) * (o.t / o.n))
        * cosh (o.sigma * √(o.t / o.n))) ^ o.n - o.K * exp (-o.r * o.t) := by
  obtain ⟨x, y, hx, hy, he⟩ := parity_mean .jr o h.n hty
  refine ⟨x, y, hx, hy, he.trans ?_⟩
  rw [jr_mean, Df_eq, exp_div_pow _ _ h.ne, ← mul_assoc, ← exp_add]
  congr 4; ring_nf

/-- … and therefore strictly below put-call parity whenever `S > 0`: JR trees violate it for every
number of steps. -/
theorem C19_jr_violates (o : Opt) (h : TreeValid o) (hS : 0 < o.S) (hty : o.type = "european") :
    ∃ x y, price .jr o true = .ok x ∧ price .jr o false = .ok y ∧
      x - y < o.S * exp ((o.b - o.r) * o.t) - o.K * exp (-o.r * o.t) := by
  obtain ⟨x, y, hx, hy, he⟩ := C19_jr_forward o h hty
  refine ⟨x, y, hx, hy, ?_⟩
  rw [he]
  have hz : o.sigma * √(o.t / o.n) ≠ 0 := (mul_pos h.sigma (sqrt_pos.2 h.dt)).ne'
  have hcosh : cosh (o.sigma * √(o.t / o.n)) < exp ((o.sigma * √(o.t / o.n)) ^ 2 / 2) := by
    set z := o.sigma * √(o.t / o.n)
    have e1 : cosh z = 2 * cosh (z / 2) ^ 2 - 1 := by
      have := cosh_two_mul (z / 2); have := cosh_sq (z / 2)
      rw [show z = 2 * (z / 2) by ring, cosh_two_mul, show 2 * (z / 2) / 2 = z / 2 by ring]; linarith
    have e2 : cosh (z / 2) ^ 2 ≤ exp (z ^ 2 / 4) := by
      have := pow_le_pow_left₀ (cosh_pos _).le (cosh_le_exp_half_sq (z / 2)) 2
      rwa [← exp_nat_mul, show ((2 : ℕ) : ℝ) * ((z / 2) ^ 2 / 2) = z ^ 2 / 4 by push_cast; ring] at this
    have e3 : exp (z ^ 2 / 2) = exp (z ^ 2 / 4) ^ 2 := by rw [← exp_nat_mul]; congr 1; push_cast; ring
    have e4 : 1 < exp (z ^ 2 / 4) := by rw [one_lt_exp_iff]; positivity
    rw [e1, e3]; nlinarith
  have hsq : (o.sigma * √(o.t / o.n)) ^ 2 = o.sigma ^ 2 * (o.t / o.n) := by
    rw [mul_pow, sq_sqrt h.dt.le]
  have h1 : exp ((o.b - o.sigma ^ 2 / 2 - o.r) * (o.t / o.n)) * cosh (o.sigma * √(o.t / o.n))
      < exp ((o.b - o.r) * (o.t / o.n)) := by
    calc _ < exp ((o.b - o.sigma ^ 2 / 2 - o.r) * (o.t / o.n)) * exp ((o.sigma * √(o.t / o.n)) ^ 2 / 2) :=
          mul_lt_mul_of_pos_left hcosh (exp_pos _)
      _ = _ := by rw [← exp_add, hsq]; congr 1; ring
  have h2 := pow_lt_pow_left₀ h1 (mul_nonneg (exp_pos _).le (cosh_pos _).le) h.ne
  rw [exp_div_pow _ _ h.ne] at h2
  have := mul_lt_mul_of_pos_left h2 hS
  linarith

/-! ### C20 -/

/-- C20. `call(tree=True)` / `put(tree=True)` is an `(n+1)×(n+1)` matrix whose column `j` holds, from the
top, the option values at step `j` from the highest node to the lowest, and zeros below the diagonal; the
values are the European (American) values of the lattice, and `[0,0]` is the price. -/
theorem C20_tree_european (c : Cls) (o : Opt) (hn : 0 < o.n) (hty : o.type = "european") (isCall : Bool) :
    ∃ V M, IsEuropean isCall o.S o.K (factors c o).u (factors c o).d (factors c o).p (factors c o).Df o.n V ∧
      priceTree c o isCall = .ok M ∧ M.rows = o.n + 1 ∧ M.cols = o.n + 1 ∧
      (∀ a ≤ o.n, ∀ j ≤ o.n, M.entry a j = if a ≤ j then V j (j - a) else 0) ∧
      price c o isCall = M.get 0 0 := by
  obtain ⟨V, hV⟩ := exists_european isCall o.S o.K (factors c o).u (factors c o).d (factors c o).p
    (factors c o).Df o.n
  obtain ⟨M, h1, h2, h3, h4⟩ := (roll_euro hV).calcTree
  refine ⟨V, M, hV, ?_, h2, h3, h4, ?_⟩
  · simp only [priceTree, if_neg hn.ne', hty]; exact h1
  · have hp : price c o isCall = .ok (V 0 0) := by
      simp only [price, if_neg hn.ne', hty]; exact (roll_euro hV).calcPrice
    rw [hp]
    simp [Mat.get, h2, h3, h4 0 (by omega) 0 (by omega)]

theorem C20_tree_american (c : Cls) (o : Opt) (hn : 0 < o.n) (hty : o.type = "american") (isCall : Bool) :
    ∃ V M, IsAmerican isCall o.S o.K (factors c o).u (factors c o).d (factors c o).p (factors c o).Df o.n V ∧
      priceTree c o isCall = .ok M ∧ M.rows = o.n + 1 ∧ M.cols = o.n + 1 ∧
      (∀ a ≤ o.n, ∀ j ≤ o.n, M.entry a j = if a ≤ j then V j (j - a) else 0) ∧
      price c o isCall = M.get 0 0 := by
  obtain ⟨V, hV⟩ := exists_american isCall o.S o.K (factors c o).u (factors c o).d (factors c o).p
    (factors c o).Df o.n
  obtain ⟨M, h1, h2, h3, h4⟩ := (roll_amer hV).calcTree
  refine ⟨V, M, hV, ?_, h2, h3, h4, ?_⟩
  · simp only [priceTree, if_neg hn.ne', hty]; exact h1
  · have hp : price c o isCall = .ok (V 0 0) := by
      simp only [price, if_neg hn.ne', hty]; exact (roll_amer hV).calcPrice
    rw [hp]
    simp [Mat.get, h2, h3, h4 0 (by omega) 0 (by omega)]

/-- On a rational lattice the whole model can be run: the matrix of a two-step American put. -/
example : (calcTree (R := ℚ) 4 5 2 (1 / 2) (1 / 2) (4 / 5) (-1) 2 "american").map
    (fun M => (List.range 3).map fun a => (List.range 3).map fun j => M.entry a j)
    = .ok [[34 / 25, 2 / 5, 0], [0, 3, 1], [0, 0, 4]] := by decide +kernel

/-! ### C21 -/

/-- C21. American price: at least exercise value, at least the European price, and nonnegative.
`ProbOK` (only a condition for CRR: `|b|√dt ≤ σ`) says the tree's probability is in `[0,1]`. -/
theorem C21_american_dominates (c : Cls) (o : Opt) (h : TreeValid o) (hp : ProbOK c o) (isCall : Bool) :
    ∃ A E, price c { o with type := "american" } isCall = .ok A ∧
      price c { o with type := "european" } isCall = .ok E ∧
      E ≤ A ∧ intrinsic isCall o.S o.K ≤ A ∧ 0 ≤ E := by
  obtain ⟨V, hV⟩ := exists_val true isCall o.S o.K (factors c o).u (factors c o).d (factors c o).p
    (factors c o).Df o.n
  obtain ⟨W, hW⟩ := exists_val false isCall o.S o.K (factors c o).u (factors c o).d (factors c o).p
    (factors c o).Df o.n
  obtain ⟨p0, p1⟩ := prob_ok h hp
  refine ⟨V 0 0, W 0 0, price_val (o := { o with type := "american" }) (am := true) h.ne rfl hV,
    price_val (o := { o with type := "european" }) (am := false) h.ne rfl hW,
    american_ge_european hV hW (Df_nonneg c) p0 p1 0 (by omega) 0 le_rfl, ?_,
    hW.nonneg (Df_nonneg c) p0 p1 0 (by omega) 0 le_rfl⟩
  simpa [node] using american_ge_intrinsic hV 0 (by omega) 0 le_rfl

/-- C21 at every node of the returned matrices: the American entry is at least the exercise value at that
node and at least the European entry. -/
theorem C21_nodes (c : Cls) (o : Opt) (h : TreeValid o) (hp : ProbOK c o) (isCall : Bool) :
    ∃ MA ME, priceTree c { o with type := "american" } isCall = .ok MA ∧
      priceTree c { o with type := "european" } isCall = .ok ME ∧
      ∀ j ≤ o.n, ∀ a ≤ j, ME.entry a j ≤ MA.entry a j ∧
        intrinsic isCall (o.S * (factors c o).u ^ (j - a) * (factors c o).d ^ a) o.K ≤ MA.entry a j := by
  obtain ⟨V, hV⟩ := exists_val true isCall o.S o.K (factors c o).u (factors c o).d (factors c o).p
    (factors c o).Df o.n
  obtain ⟨W, hW⟩ := exists_val false isCall o.S o.K (factors c o).u (factors c o).d (factors c o).p
    (factors c o).Df o.n
  obtain ⟨p0, p1⟩ := prob_ok h hp
  obtain ⟨MA, a1, -, -, a4⟩ := hV.roll.calcTree
  obtain ⟨ME, e1, -, -, e4⟩ := hW.roll.calcTree
  refine ⟨MA, ME, ?_, ?_, ?_⟩
  · simp only [priceTree, if_neg h.ne]; exact a1
  · simp only [priceTree, if_neg h.ne]; exact e1
  · intro j hj a ha
    rw [a4 a (by omega) j hj, e4 a (by omega) j hj, if_pos ha, if_pos ha]
    refine ⟨american_ge_european hV hW (Df_nonneg c) p0 p1 j hj (j - a) (by omega), ?_⟩
    have := american_ge_intrinsic hV j hj (j - a) (by omega)
    rwa [node, show j - (j - a) = a by omega] at this

example : TreeValid (exampleTree "american") ∧ ProbOK .crr (exampleTree "american") :=
  ⟨exampleTree_valid _, exampleTree_prob _ _⟩

/-! ### C22 -/

/-- C22. On CRR and TIAN trees an American call is worth exactly its European counterpart when
`b ≥ r ≥ 0`. -/
theorem C22_no_early_exercise (c : Cls) (hc : c = .crr ∨ c = .tian) (o : Opt) (h : TreeValid o)
    (hp : ProbOK c o) (hS : 0 ≤ o.S) (hK : 0 ≤ o.K) (hr : 0 ≤ o.r) (hb : o.r ≤ o.b) :
    price c { o with type := "american" } true = price c { o with type := "european" } true := by
  obtain ⟨V, hV⟩ := exists_val true true o.S o.K (factors c o).u (factors c o).d (factors c o).p
    (factors c o).Df o.n
  obtain ⟨W, hW⟩ := exists_val false true o.S o.K (factors c o).u (factors c o).d (factors c o).p
    (factors c o).Df o.n
  obtain ⟨p0, p1⟩ := prob_ok h hp
  rw [price_val (o := { o with type := "american" }) (am := true) h.ne rfl hV,
    price_val (o := { o with type := "european" }) (am := false) h.ne rfl hW]
  congr 1
  refine american_call_eq hV hW hS hK (u_nonneg c h) (d_nonneg c h) (Df_nonneg c) (Df_le_one c h hr) p0 p1
    ?_ 0 (by omega) 0 le_rfl
  have hm : (factors c o).p * (factors c o).u + (1 - (factors c o).p) * (factors c o).d
      = exp (o.b * (o.t / o.n)) := by
    rcases hc with rfl | rfl
    · exact (good_crr h).mean
    · exact (good_tian h).mean
  rw [hm, Df_eq, ← exp_add, one_le_exp_iff]
  have := h.dt
  nlinarith

example : (exampleTree "american").r ≤ (exampleTree "american").b ∧ 0 ≤ (exampleTree "american").r := by
  norm_num [exampleTree]

/-- C22 (finding). JR trees do not have the property: with `r = b = 0` and a strike below every node the
American call is strictly dearer. -/
theorem C22_jr_fails (o : Opt) (h : TreeValid o) (hS : 0 < o.S) (hr : o.r = 0) (hb : o.b = 0)
    (hK : ∀ k ≤ o.n, o.K ≤ node o.S (factors .jr o).u (factors .jr o).d o.n k) :
    ∃ A E, price .jr { o with type := "american" } true = .ok A ∧
      price .jr { o with type := "european" } true = .ok E ∧ E < A := by
  obtain ⟨A, E, hA, hE, -, hi, -⟩ := C21_american_dominates .jr o h (by intro h; cases h) true
  refine ⟨A, E, hA, hE, lt_of_lt_of_le ?_ hi⟩
  obtain ⟨x, y, hx, hy, hlt⟩ := C19_jr_violates { o with type := "european" } ⟨h.t, h.sigma, h.n⟩ hS rfl
  have hxE : x = E := by rw [hE] at hx; injection hx with h; exact h.symm
  have hy0 : y = 0 := by
    have := european_price .jr { o with type := "european" } h.n rfl false
    rw [hy] at this
    injection this with this
    rw [this]
    unfold binomialExpectation
    rw [Finset.sum_eq_zero, mul_zero]
    intro k hk
    have hk' := hK k (by have := Finset.mem_range.1 hk; simp only at this; omega)
    have : payoff false (node o.S (factors .jr o).u (factors .jr o).d o.n k) o.K = 0 := by
      simp only [payoff, Bool.false_eq_true, if_false]; exact max_eq_right (by linarith)
    simp only at this ⊢
    rw [show factors .jr { o with type := "european" } = factors .jr o from rfl, this, mul_zero]
  rw [hy0, hxE] at hlt
  simp only [hr, hb, sub_zero, zero_mul, neg_zero, exp_zero, mul_one] at hlt
  simpa [intrinsic] using hlt

/-- The hypotheses of `C22_jr_fails` are met by ordinary in-the-money options. -/
example : let o : Opt := ⟨1, 1 / 10, 1, 0, 0, 2 / 5, "american", 1⟩
    TreeValid o ∧ ∀ k ≤ o.n, o.K ≤ node o.S (factors .jr o).u (factors .jr o).d o.n k := by
  refine ⟨⟨by norm_num, by norm_num, by norm_num⟩, ?_⟩
  intro k hk
  have hk' : k = 0 ∨ k = 1 := by simp only at hk; omega
  have h1 := add_one_le_exp (-(12 / 25) : ℝ)
  have h2 := add_one_le_exp (8 / 25 : ℝ)
  rcases hk' with rfl | rfl
  · simp only [node, factors]
    norm_num at h1 ⊢; linarith
  · simp only [node, factors]
    norm_num at h2 ⊢; linarith

/-! ### C23 -/

/-- C23. Nonnegativity, for both exercise styles. -/
theorem C23_nonneg (c : Cls) (o : Opt) (h : TreeValid o) (hp : ProbOK c o)
    (hty : o.type = "european" ∨ o.type = "american") (isCall : Bool) :
    ∃ x, price c o isCall = .ok x ∧ 0 ≤ x := by
  obtain ⟨am, ham⟩ : ∃ am, o.type = typeOf am := by
    rcases hty with h | h
    · exact ⟨false, h⟩
    · exact ⟨true, h⟩
  obtain ⟨V, hV⟩ := exists_val am isCall o.S o.K (factors c o).u (factors c o).d (factors c o).p
    (factors c o).Df o.n
  obtain ⟨p0, p1⟩ := prob_ok h hp
  exact ⟨_, price_val h.ne ham hV, hV.nonneg (Df_nonneg c) p0 p1 0 (by omega) 0 le_rfl⟩

/-- C23. In the strike, calls are nonincreasing, puts nondecreasing. -/
theorem C23_strike_mono (c : Cls) (o : Opt) (h : TreeValid o) (hp : ProbOK c o)
    (hty : o.type = "european" ∨ o.type = "american") (K₁ K₂ : ℝ) (hK : K₁ ≤ K₂) :
    ∃ c₁ c₂ p₁ p₂, price c { o with K := K₁ } true = .ok c₁ ∧ price c { o with K := K₂ } true = .ok c₂ ∧
      price c { o with K := K₁ } false = .ok p₁ ∧ price c { o with K := K₂ } false = .ok p₂ ∧
      c₂ ≤ c₁ ∧ p₁ ≤ p₂ := by
  obtain ⟨am, ham⟩ : ∃ am, o.type = typeOf am := by
    rcases hty with h | h
    · exact ⟨false, h⟩
    · exact ⟨true, h⟩
  obtain ⟨p0, p1⟩ := prob_ok h hp
  have D0 := Df_nonneg (o := o) c
  obtain ⟨A₁, hA₁⟩ := exists_val am true o.S K₁ (factors c o).u (factors c o).d (factors c o).p
    (factors c o).Df o.n
  obtain ⟨A₂, hA₂⟩ := exists_val am true o.S K₂ (factors c o).u (factors c o).d (factors c o).p
    (factors c o).Df o.n
  obtain ⟨B₁, hB₁⟩ := exists_val am false o.S K₁ (factors c o).u (factors c o).d (factors c o).p
    (factors c o).Df o.n
  obtain ⟨B₂, hB₂⟩ := exists_val am false o.S K₂ (factors c o).u (factors c o).d (factors c o).p
    (factors c o).Df o.n
  refine ⟨_, _, _, _, price_val (o := { o with K := K₁ }) h.ne ham hA₁,
    price_val (o := { o with K := K₂ }) h.ne ham hA₂, price_val (o := { o with K := K₁ }) h.ne ham hB₁,
    price_val (o := { o with K := K₂ }) h.ne ham hB₂, ?_, ?_⟩
  · exact val_mono hA₂ hA₁ D0 p0 p1 (by intros; simp [intrinsic]; linarith) 0 (by omega) 0 le_rfl
  · exact val_mono hB₁ hB₂ D0 p0 p1 (by intros; simp [intrinsic]; linarith) 0 (by omega) 0 le_rfl

/-- C23. With `r ≥ 0` the price moves by at most the change of the strike. -/
theorem C23_strike_slope (c : Cls) (o : Opt) (h : TreeValid o) (hp : ProbOK c o) (hr : 0 ≤ o.r)
    (hty : o.type = "european" ∨ o.type = "american") (isCall : Bool) (K₁ K₂ : ℝ) :
    ∃ x₁ x₂, price c { o with K := K₁ } isCall = .ok x₁ ∧ price c { o with K := K₂ } isCall = .ok x₂ ∧
      |x₁ - x₂| ≤ |K₁ - K₂| := by
  obtain ⟨am, ham⟩ : ∃ am, o.type = typeOf am := by
    rcases hty with h | h
    · exact ⟨false, h⟩
    · exact ⟨true, h⟩
  obtain ⟨p0, p1⟩ := prob_ok h hp
  have D0 := Df_nonneg (o := o) c
  have D1 := Df_le_one c h hr
  obtain ⟨A₁, hA₁⟩ := exists_val am isCall o.S K₁ (factors c o).u (factors c o).d (factors c o).p
    (factors c o).Df o.n
  obtain ⟨A₂, hA₂⟩ := exists_val am isCall o.S K₂ (factors c o).u (factors c o).d (factors c o).p
    (factors c o).Df o.n
  refine ⟨_, _, price_val (o := { o with K := K₁ }) h.ne ham hA₁,
    price_val (o := { o with K := K₂ }) h.ne ham hA₂, ?_⟩
  have l1 := le_abs_self (K₁ - K₂)
  have l2 := neg_abs_le (K₁ - K₂)
  have e1 := val_lip hA₁ hA₂ D0 D1 p0 p1 (abs_nonneg (K₁ - K₂))
    (by intros; cases isCall <;> simp [intrinsic] <;> linarith) 0 (by omega) 0 le_rfl
  have e2 := val_lip hA₂ hA₁ D0 D1 p0 p1 (abs_nonneg (K₁ - K₂))
    (by intros; cases isCall <;> simp [intrinsic] <;> linarith) 0 (by omega) 0 le_rfl
  rw [abs_le]; constructor <;> linarith

/-- C23. In the spot, calls are nondecreasing, puts nonincreasing. -/
theorem C23_spot_mono (c : Cls) (o : Opt) (h : TreeValid o) (hp : ProbOK c o)
    (hty : o.type = "european" ∨ o.type = "american") (S₁ S₂ : ℝ) (hS : S₁ ≤ S₂) :
    ∃ c₁ c₂ p₁ p₂, price c { o with S := S₁ } true = .ok c₁ ∧ price c { o with S := S₂ } true = .ok c₂ ∧
      price c { o with S := S₁ } false = .ok p₁ ∧ price c { o with S := S₂ } false = .ok p₂ ∧
      c₁ ≤ c₂ ∧ p₂ ≤ p₁ := by
  obtain ⟨am, ham⟩ : ∃ am, o.type = typeOf am := by
    rcases hty with h | h
    · exact ⟨false, h⟩
    · exact ⟨true, h⟩
  obtain ⟨p0, p1⟩ := prob_ok h hp
  have D0 := Df_nonneg (o := o) c
  have u0 := u_nonneg c h
  have d0 := d_nonneg c h
  obtain ⟨A₁, hA₁⟩ := exists_val am true S₁ o.K (factors c o).u (factors c o).d (factors c o).p
    (factors c o).Df o.n
  obtain ⟨A₂, hA₂⟩ := exists_val am true S₂ o.K (factors c o).u (factors c o).d (factors c o).p
    (factors c o).Df o.n
  obtain ⟨B₁, hB₁⟩ := exists_val am false S₁ o.K (factors c o).u (factors c o).d (factors c o).p
    (factors c o).Df o.n
  obtain ⟨B₂, hB₂⟩ := exists_val am false S₂ o.K (factors c o).u (factors c o).d (factors c o).p
    (factors c o).Df o.n
  have hn : ∀ j k, node S₁ (factors c o).u (factors c o).d j k ≤ node S₂ (factors c o).u (factors c o).d j k := by
    intro j k; unfold node; gcongr
  refine ⟨_, _, _, _, price_val (o := { o with S := S₁ }) h.ne ham hA₁,
    price_val (o := { o with S := S₂ }) h.ne ham hA₂, price_val (o := { o with S := S₁ }) h.ne ham hB₁,
    price_val (o := { o with S := S₂ }) h.ne ham hB₂, ?_, ?_⟩
  · exact val_mono hA₁ hA₂ D0 p0 p1 (by intro j _ k _; have := hn j k; simp [intrinsic]; linarith)
      0 (by omega) 0 le_rfl
  · exact val_mono hB₂ hB₁ D0 p0 p1 (by intro j _ k _; have := hn j k; simp [intrinsic]; linarith)
      0 (by omega) 0 le_rfl

/-- C23. Convexity, jointly in spot and strike. -/
theorem C23_convex (c : Cls) (o : Opt) (h : TreeValid o) (hp : ProbOK c o)
    (hty : o.type = "european" ∨ o.type = "american") (isCall : Bool) (S₁ S₂ K₁ K₂ l : ℝ)
    (hl : 0 ≤ l) (hl1 : l ≤ 1) :
    ∃ x x₁ x₂, price c { o with S := l * S₁ + (1 - l) * S₂, K := l * K₁ + (1 - l) * K₂ } isCall = .ok x ∧
      price c { o with S := S₁, K := K₁ } isCall = .ok x₁ ∧
      price c { o with S := S₂, K := K₂ } isCall = .ok x₂ ∧ x ≤ l * x₁ + (1 - l) * x₂ := by
  obtain ⟨am, ham⟩ : ∃ am, o.type = typeOf am := by
    rcases hty with h | h
    · exact ⟨false, h⟩
    · exact ⟨true, h⟩
  obtain ⟨p0, p1⟩ := prob_ok h hp
  have D0 := Df_nonneg (o := o) c
  obtain ⟨V, hV⟩ := exists_val am isCall (l * S₁ + (1 - l) * S₂) (l * K₁ + (1 - l) * K₂)
    (factors c o).u (factors c o).d (factors c o).p (factors c o).Df o.n
  obtain ⟨A₁, hA₁⟩ := exists_val am isCall S₁ K₁ (factors c o).u (factors c o).d (factors c o).p
    (factors c o).Df o.n
  obtain ⟨A₂, hA₂⟩ := exists_val am isCall S₂ K₂ (factors c o).u (factors c o).d (factors c o).p
    (factors c o).Df o.n
  exact ⟨_, _, _,
    price_val (o := { o with S := l * S₁ + (1 - l) * S₂, K := l * K₁ + (1 - l) * K₂ }) h.ne ham hV,
    price_val (o := { o with S := S₁, K := K₁ }) h.ne ham hA₁,
    price_val (o := { o with S := S₂, K := K₂ }) h.ne ham hA₂,
    val_convex hl hl1 hA₁ hA₂ hV D0 p0 p1 0 (by omega) 0 le_rfl⟩

/-- C23. Homogeneity in `(S, K)`. -/
theorem C23_homogeneous (c : Cls) (o : Opt) (hn : 0 < o.n)
    (hty : o.type = "european" ∨ o.type = "american") (isCall : Bool) (l : ℝ) (hl : 0 ≤ l) :
    ∃ x, price c o isCall = .ok x ∧ price c { o with S := l * o.S, K := l * o.K } isCall = .ok (l * x) := by
  obtain ⟨am, ham⟩ : ∃ am, o.type = typeOf am := by
    rcases hty with h | h
    · exact ⟨false, h⟩
    · exact ⟨true, h⟩
  obtain ⟨V, hV⟩ := exists_val am isCall o.S o.K (factors c o).u (factors c o).d (factors c o).p
    (factors c o).Df o.n
  obtain ⟨W, hW⟩ := exists_val am isCall (l * o.S) (l * o.K) (factors c o).u (factors c o).d (factors c o).p
    (factors c o).Df o.n
  refine ⟨_, price_val hn.ne' ham hV, ?_⟩
  rw [price_val (o := { o with S := l * o.S, K := l * o.K }) hn.ne' ham hW,
    val_homog hl hV hW 0 (by omega) 0 le_rfl]

/-! ### C24 -/

/-- C24. Tian probabilities lie strictly between 0 and 1, always. -/
theorem C24_tian (o : Opt) (h : TreeValid o) : 0 < (factors .tian o).p ∧ (factors .tian o).p < 1 :=
  tian_prob h

/-- C24. The CRR probability is a probability exactly when the drift of a step does not exceed the
jump: `|b|√dt ≤ σ`. -/
theorem C24_crr_iff (o : Opt) (h : TreeValid o) :
    (0 ≤ (factors .crr o).p ∧ (factors .crr o).p ≤ 1) ↔ |o.b| * √(o.t / o.n) ≤ o.sigma := by
  refine ⟨fun ⟨h0, h1⟩ => ?_, crr_prob h⟩
  have g := good_crr h
  have hud : 0 < (factors .crr o).u - (factors .crr o).d := sub_pos.2 g.lt
  rw [g.p] at h0 h1
  have k1 : (factors .crr o).d ≤ exp (o.b * (o.t / o.n)) := by
    by_contra hc
    push Not at hc
    exact absurd h0 (not_le.2 (div_neg_of_neg_of_pos (by linarith) hud))
  have k2 : exp (o.b * (o.t / o.n)) ≤ (factors .crr o).u := by
    rw [div_le_one hud] at h1; linarith
  rw [crr_d, exp_le_exp] at k1
  have k2' : o.b * (o.t / o.n) ≤ o.sigma * √(o.t / o.n) := exp_le_exp.1 k2
  have hs := sqrt_pos.2 h.dt
  have hsq : √(o.t / o.n) * √(o.t / o.n) = o.t / o.n := mul_self_sqrt h.dt.le
  have key : |o.b * (o.t / o.n)| ≤ o.sigma * √(o.t / o.n) := abs_le.2 ⟨k1, k2'⟩
  rw [abs_mul, abs_of_pos h.dt] at key
  by_contra hc
  push Not at hc
  have := mul_lt_mul_of_pos_right hc hs
  rw [mul_assoc, hsq] at this
  linarith

/-- C24 (finding). Outside that range the tree silently uses a negative weight: with one step, `b = 4`,
`σ = 1`, `t = 1` the "probability" exceeds one. -/
theorem C24_crr_negative_weight :
    ∃ o : Opt, TreeValid o ∧ 1 < (factors .crr o).p ∧ ∃ x, price .crr o true = .ok x := by
  let o : Opt := ⟨1, 1, 1, 0, 4, 1, "european", 1⟩
  have h : TreeValid o := ⟨by norm_num [o], by norm_num [o], by norm_num [o]⟩
  refine ⟨o, h, ?_, _, european_price .crr o h.n rfl true⟩
  have g := good_crr h
  have hud : 0 < (factors .crr o).u - (factors .crr o).d := sub_pos.2 g.lt
  rw [g.p, one_lt_div hud]
  have : (factors .crr o).u < exp (o.b * (o.t / o.n)) := by
    simp only [factors, o]; norm_num
  linarith

/-- C24. Trinomial weights sum to one and are a probability vector exactly when `|b|√(dt/2) ≤ σ`;
the up and down weights are never negative. -/
theorem C24_trinomial (o : Opt) (h : TreeValid o) :
    0 ≤ (factors3 o).pu ∧ 0 ≤ (factors3 o).pd ∧
      (factors3 o).pu + (factors3 o).pm + (factors3 o).pd = 1 ∧
      (0 ≤ (factors3 o).pm ↔ |o.b| * √(o.t / o.n / 2) ≤ o.sigma) := by
  obtain ⟨-, -, h3, h4, h5, -⟩ := factors3_eq h
  refine ⟨by rw [h3]; positivity, by rw [h5]; positivity, ?_, ?_⟩
  · rw [h3, h4, h5]; ring
  · rw [h4]
    have h2 : TreeValid { o with n := 2 * o.n } := ⟨h.t, h.sigma, by have := h.n; simp only; omega⟩
    have hn : (o.n : ℝ) ≠ 0 := by exact_mod_cast h.ne
    have hdt : o.t / ((2 * o.n : ℕ) : ℝ) = o.t / o.n / 2 := by push_cast; field_simp
    have key := C24_crr_iff { o with n := 2 * o.n } h2
    simp only [hdt] at key
    rw [← key]
    generalize (factors .crr { o with n := 2 * o.n }).p = q
    constructor
    · intro hq
      have : 0 ≤ q * (1 - q) := by linarith
      constructor <;> nlinarith
    · rintro ⟨a, b⟩
      have : 0 ≤ 1 - q := by linarith
      positivity

/-! ### C25 -/

theorem price3_euro {o : Opt} (hn : 0 < o.n) (hty : o.type = "european") (isCall : Bool) {V : ℕ → ℕ → ℝ}
    (hV : IsEuropean3 isCall o.S o.K (factors3 o).u (factors3 o).d (factors3 o).pu (factors3 o).pm
      (factors3 o).pd (factors3 o).Df o.n V) : price3 o isCall = .ok (V 0 0) := by
  simp only [price3, if_neg hn.ne', hty]; exact (roll3_euro hV).calcPrice

theorem price3_amer {o : Opt} (hn : 0 < o.n) (hty : o.type = "american") (isCall : Bool) {V : ℕ → ℕ → ℝ}
    (hV : IsAmerican3 isCall o.S o.K (factors3 o).u (factors3 o).d (factors3 o).pu (factors3 o).pm
      (factors3 o).pd (factors3 o).Df o.n V) : price3 o isCall = .ok (V 0 0) := by
  simp only [price3, if_neg hn.ne', hty]; exact (roll3_amer hV).calcPrice

theorem crr_d_inv (o : Opt) : (factors .crr o).d = (factors .crr o).u⁻¹ := one_div _

/-- C25. A European trinomial tree with `n` steps gives exactly the CRR price with `2n` steps. -/
theorem C25_trinomial_eq_crr (o : Opt) (h : TreeValid o) (hty : o.type = "european") (isCall : Bool) :
    price3 o isCall = price .crr { o with n := 2 * o.n } isCall := by
  obtain ⟨V, hV⟩ := exists_european3 isCall o.S o.K (factors3 o).u (factors3 o).d (factors3 o).pu
    (factors3 o).pm (factors3 o).pd (factors3 o).Df o.n
  let o2 : Opt := { o with n := 2 * o.n }
  obtain ⟨W, hW⟩ := exists_val false isCall o.S o.K (factors .crr o2).u (factors .crr o2).d
    (factors .crr o2).p (factors .crr o2).Df (2 * o.n)
  rw [price3_euro h.n hty isCall hV,
    price_val (o := o2) (am := false) (by show 2 * o.n ≠ 0; have := h.n; omega) hty hW]
  obtain ⟨e1, e2, e3, e4, e5, e6⟩ := factors3_eq h
  rw [e1, e2, e3, e4, e5, e6] at hV
  rw [crr_d_inv] at hW
  congr 1
  exact european3_eq (exp_pos _).ne' hV hW 0 (by omega) 0 le_rfl

/-- C25. An American trinomial price is at most the American CRR price with `2n` steps. -/
theorem C25_trinomial_american_le (o : Opt) (h : TreeValid o) (hp : |o.b| * √(o.t / o.n / 2) ≤ o.sigma)
    (hty : o.type = "american") (isCall : Bool) :
    ∃ x y, price3 o isCall = .ok x ∧ price .crr { o with n := 2 * o.n } isCall = .ok y ∧ x ≤ y := by
  obtain ⟨V, hV⟩ := exists_american3 isCall o.S o.K (factors3 o).u (factors3 o).d (factors3 o).pu
    (factors3 o).pm (factors3 o).pd (factors3 o).Df o.n
  let o2 : Opt := { o with n := 2 * o.n }
  have h2 : TreeValid o2 := ⟨h.t, h.sigma, by show 0 < 2 * o.n; have := h.n; omega⟩
  obtain ⟨W, hW⟩ := exists_val true isCall o.S o.K (factors .crr o2).u (factors .crr o2).d
    (factors .crr o2).p (factors .crr o2).Df (2 * o.n)
  refine ⟨_, _, price3_amer h.n hty isCall hV, price_val (o := o2) (am := true) h2.ne hty hW, ?_⟩
  obtain ⟨e1, e2, e3, e4, e5, e6⟩ := factors3_eq h
  rw [e1, e2, e3, e4, e5, e6] at hV
  have hdt : o.t / ((2 * o.n : ℕ) : ℝ) = o.t / o.n / 2 := by push_cast; field_simp
  obtain ⟨p0, p1⟩ := crr_prob h2 (by show |o.b| * √(o.t / ((2 * o.n : ℕ) : ℝ)) ≤ o.sigma; rwa [hdt])
  rw [crr_d_inv] at hW
  exact american3_le (exp_pos _).ne' (Df_nonneg _) p0 p1 hV hW 0 (by omega) 0 le_rfl

/-- C19 for the trinomial tree. -/
theorem C19_trinomial_parity (o : Opt) (h : TreeValid o) (hty : o.type = "european") :
    ∃ x y, price3 o true = .ok x ∧ price3 o false = .ok y ∧
      x - y = o.S * exp ((o.b - o.r) * o.t) - o.K * exp (-o.r * o.t) := by
  rw [C25_trinomial_eq_crr o h hty, C25_trinomial_eq_crr o h hty]
  exact C19_parity .crr (Or.inl rfl) { o with n := 2 * o.n }
    ⟨h.t, h.sigma, by have := h.n; simp only; omega⟩ hty

/-- C21 for the trinomial tree. -/
theorem C21_trinomial (o : Opt) (h : TreeValid o) (hp : |o.b| * √(o.t / o.n / 2) ≤ o.sigma)
    (isCall : Bool) :
    ∃ A E, price3 { o with type := "american" } isCall = .ok A ∧
      price3 { o with type := "european" } isCall = .ok E ∧ E ≤ A ∧ intrinsic isCall o.S o.K ≤ A := by
  obtain ⟨V, hV⟩ := exists_american3 isCall o.S o.K (factors3 o).u (factors3 o).d (factors3 o).pu
    (factors3 o).pm (factors3 o).pd (factors3 o).Df o.n
  obtain ⟨W, hW⟩ := exists_european3 isCall o.S o.K (factors3 o).u (factors3 o).d (factors3 o).pu
    (factors3 o).pm (factors3 o).pd (factors3 o).Df o.n
  obtain ⟨h1, h2, -, h4⟩ := C24_trinomial o h
  have hD : 0 ≤ (factors3 o).Df := (exp_pos _).le
  refine ⟨_, _, price3_amer (o := { o with type := "american" }) h.n rfl isCall hV,
    price3_euro (o := { o with type := "european" }) h.n rfl isCall hW,
    american3_ge_european3 hV hW hD h1 (h4.2 hp) h2 0 (by omega) 0 le_rfl, ?_⟩
  simpa [node3] using american3_ge_intrinsic hV 0 (by omega) 0 le_rfl

/-- C22 for the trinomial tree. -/
theorem C22_trinomial (o : Opt) (h : TreeValid o) (hp : |o.b| * √(o.t / o.n / 2) ≤ o.sigma)
    (hS : 0 ≤ o.S) (hK : 0 ≤ o.K) (hr : 0 ≤ o.r) (hb : o.r ≤ o.b) :
    price3 { o with type := "american" } true = price3 { o with type := "european" } true := by
  have hA : TreeValid { o with type := "american" } := ⟨h.t, h.sigma, h.n⟩
  have hE : TreeValid { o with type := "european" } := ⟨h.t, h.sigma, h.n⟩
  obtain ⟨A, E, h1, h2, h3, -⟩ := C21_trinomial o h hp true
  obtain ⟨x, y, g1, g2, g3⟩ := C25_trinomial_american_le { o with type := "american" } hA hp rfl true
  have k := C25_trinomial_eq_crr { o with type := "european" } hE rfl true
  have hdt : o.t / ((2 * o.n : ℕ) : ℝ) = o.t / o.n / 2 := by push_cast; field_simp
  have m := C22_no_early_exercise .crr (Or.inl rfl) { o with n := 2 * o.n }
    ⟨h.t, h.sigma, by have := h.n; simp only; omega⟩
    (fun _ => by show |o.b| * √(o.t / ((2 * o.n : ℕ) : ℝ)) ≤ o.sigma; rwa [hdt]) hS hK hr hb
  simp only at g2 m k
  rw [h1] at g1
  rw [m, ← k, h2] at g2
  rw [h1, h2]
  injection g1 with g1
  injection g2 with g2
  congr 1
  linarith

/-! ### C26 -/

/-- C26, the part that holds. Full statement: *every* tree option refuses a type that is neither
`"european"` nor `"american"`. The binomial classes do (with `UnboundLocalError`), for the price and for the
tree; the trinomial class does not (`C26_trinomial_accepts`), so the full statement is false of the code. -/
theorem C26_binomial_refuses_partial (c : Cls) (o : Opt) (hn : 0 < o.n) (h1 : o.type ≠ "european")
    (h2 : o.type ≠ "american") (isCall : Bool) :
    price c o isCall = .error .unboundLocal ∧ priceTree c o isCall = .error .unboundLocal := by
  simp [price, priceTree, hn.ne', calcPrice, calcTree, roll, h1, h2, bind, Except.bind]

theorem roll3_unknown {R : Type} [Field R] [LinearOrder R] (S K u d pu pd pm Df z : R) (n : ℕ)
    (type : String) (h1 : type ≠ "european") (h2 : type ≠ "american") :
    ∃ tr, roll3 S K u d pu pd pm Df z n type = .ok (terminal3 S K u d z n, tr) := by
  unfold roll3
  simp only [if_neg h1, if_neg h2]
  have hlen : (terminal3 S K u d z n).length = 2 * n + 1 := by simp [terminal3]
  generalize terminal3 S K u d z n = ov at hlen
  have inner : ∀ m ≤ 2 * n + 1, ∀ tr : List R, ∃ tr', (List.range m).foldlM (init := (ov, tr))
      (fun st i => (do
        let ov' ← pure st.1
        let x ← getI ov' i
        return (ov', st.2 ++ [x]) : Except PyErr (List R × List R))) = .ok (ov, tr') := by
    intro m hm tr
    induction m with
    | zero => exact ⟨tr, by simp [pure, Except.pure]⟩
    | succ m ih =>
      obtain ⟨tr', h⟩ := ih (by omega)
      rw [List.range_succ, List.foldlM_append, h]
      refine ⟨tr' ++ [ov[m]'(by omega)], ?_⟩
      simp only [bind, Except.bind, List.foldlM_cons, List.foldlM_nil, pure, Except.pure]
      rw [getI_ok (List.getElem?_eq_getElem (by omega : m < ov.length))]
  have outer : ∀ j ≤ n, ∀ tr : List R, ∃ tr', (List.range j).reverse.foldlM (init := (ov, tr))
      (fun st j => (List.range (j * 2 + 1)).foldlM (init := st)
        (fun st i => (do
          let ov' ← pure st.1
          let x ← getI ov' i
          return (ov', st.2 ++ [x]) : Except PyErr (List R × List R)))) = .ok (ov, tr') := by
    intro j
    induction j with
    | zero => intro _ tr; exact ⟨tr, by simp [pure, Except.pure]⟩
    | succ j ih =>
      intro hj tr
      obtain ⟨tr1, h⟩ := inner (j * 2 + 1) (by omega) tr
      obtain ⟨tr2, h'⟩ := ih (by omega) tr1
      refine ⟨tr2, ?_⟩
      rw [List.range_succ, List.reverse_append, List.reverse_singleton, List.singleton_append,
        List.foldlM_cons, h]
      exact h'
  exact outer n le_rfl ov

/-- C26 (finding). The trinomial tree does not refuse: for any other string it returns the payoff at the
lowest terminal node, undiscounted. -/
theorem C26_trinomial_accepts (o : Opt) (hn : 0 < o.n) (h1 : o.type ≠ "european")
    (h2 : o.type ≠ "american") (isCall : Bool) :
    price3 o isCall = .ok (payoff isCall (o.S * (factors3 o).d ^ o.n) o.K) := by
  obtain ⟨tr, h⟩ := roll3_unknown o.S o.K (factors3 o).u (factors3 o).d (factors3 o).pu (factors3 o).pd
    (factors3 o).pm (factors3 o).Df (zOf isCall) o.n o.type h1 h2
  simp only [price3, if_neg hn.ne', calcPrice3, h, bind, Except.bind]
  rw [terminal3_eq]
  refine getI_ok ?_
  simp [node3]

example : (exampleTree "bermudan").type ≠ "european" ∧ (exampleTree "bermudan").type ≠ "american" := by
  simp [exampleTree]

/-- Zero steps are refused. -/
theorem C26_zero_steps (c : Cls) (o : Opt) (h : o.n = 0) (isCall : Bool) :
    price c o isCall = .error .zeroDivision ∧ price3 o isCall = .error .zeroDivision := by
  simp [price, price3, h]

/-! ### C27, C28 -/

/-- C27. Plotting any returned binomial tree succeeds, and its annotations are exactly the lattice nodes:
the point (step `x`, net ups `2k - x`) carries the option value at step `x` after `k` ups.
(Rounding for display is not modelled.) -/
theorem C27_plot_european (c : Cls) (o : Opt) (hn : 0 < o.n) (hty : o.type = "european") (isCall : Bool) :
    ∃ V M L, IsEuropean isCall o.S o.K (factors c o).u (factors c o).d (factors c o).p (factors c o).Df o.n V ∧
      priceTree c o isCall = .ok M ∧ biLabels M = .ok L ∧
      (∀ e ∈ L, ∃ x ≤ o.n, ∃ k ≤ x, e = ((x, 2 * (k : ℤ) - x), V x k)) ∧
      (∀ x ≤ o.n, ∀ k ≤ x, ((x, 2 * (k : ℤ) - x), V x k) ∈ L) := by
  obtain ⟨V, M, hV, h1, h2, h3, h4, -⟩ := C20_tree_european c o hn hty isCall
  obtain ⟨L, l1, l2, l3⟩ := biLabels_spec hn h2 h3 h4
  exact ⟨V, M, L, hV, h1, l1, l2, l3⟩

theorem C27_plot_american (c : Cls) (o : Opt) (hn : 0 < o.n) (hty : o.type = "american") (isCall : Bool) :
    ∃ V M L, IsAmerican isCall o.S o.K (factors c o).u (factors c o).d (factors c o).p (factors c o).Df o.n V ∧
      priceTree c o isCall = .ok M ∧ biLabels M = .ok L ∧
      (∀ e ∈ L, ∃ x ≤ o.n, ∃ k ≤ x, e = ((x, 2 * (k : ℤ) - x), V x k)) ∧
      (∀ x ≤ o.n, ∀ k ≤ x, ((x, 2 * (k : ℤ) - x), V x k) ∈ L) := by
  obtain ⟨V, M, hV, h1, h2, h3, h4, -⟩ := C20_tree_american c o hn hty isCall
  obtain ⟨L, l1, l2, l3⟩ := biLabels_spec hn h2 h3 h4
  exact ⟨V, M, L, hV, h1, l1, l2, l3⟩

/-- C28. The trinomial matrix and its plot. -/
theorem C28_tree_european (o : Opt) (hn : 0 < o.n) (hty : o.type = "european") (isCall : Bool) :
    ∃ V M L, IsEuropean3 isCall o.S o.K (factors3 o).u (factors3 o).d (factors3 o).pu (factors3 o).pm
        (factors3 o).pd (factors3 o).Df o.n V ∧
      priceTree3 o isCall = .ok M ∧ M.rows = 2 * o.n + 1 ∧ M.cols = o.n + 1 ∧
      (∀ a ≤ 2 * o.n, ∀ i ≤ o.n,
        M.entry a i = if o.n - i ≤ a ∧ a ≤ o.n + i then V i (o.n + i - a) else 0) ∧
      price3 o isCall = M.get o.n 0 ∧ triLabels M = .ok L ∧
      (∀ e ∈ L, ∃ i ≤ o.n, ∃ k ≤ 2 * i, e = ((i, (k : ℤ) - i), V i k)) ∧
      (∀ i ≤ o.n, ∀ k ≤ 2 * i, ((i, (k : ℤ) - i), V i k) ∈ L) := by
  obtain ⟨V, hV⟩ := exists_european3 isCall o.S o.K (factors3 o).u (factors3 o).d (factors3 o).pu
    (factors3 o).pm (factors3 o).pd (factors3 o).Df o.n
  obtain ⟨M, h1, h2, h3, h4⟩ := (roll3_euro hV).calcTree
  obtain ⟨L, l1, l2, l3⟩ := triLabels_spec h2 h3 h4
  refine ⟨V, M, L, hV, ?_, h2, h3, h4, ?_, l1, l2, l3⟩
  · simp only [priceTree3, if_neg hn.ne', hty]; exact h1
  · rw [price3_euro hn hty isCall hV, Mat.get, if_pos ⟨by omega, by omega⟩, h4 _ (by omega) _ (by omega),
      if_pos (by omega)]
    simp

theorem C28_tree_american (o : Opt) (hn : 0 < o.n) (hty : o.type = "american") (isCall : Bool) :
    ∃ V M L, IsAmerican3 isCall o.S o.K (factors3 o).u (factors3 o).d (factors3 o).pu (factors3 o).pm
        (factors3 o).pd (factors3 o).Df o.n V ∧
      priceTree3 o isCall = .ok M ∧ M.rows = 2 * o.n + 1 ∧ M.cols = o.n + 1 ∧
      (∀ a ≤ 2 * o.n, ∀ i ≤ o.n,
        M.entry a i = if o.n - i ≤ a ∧ a ≤ o.n + i then V i (o.n + i - a) else 0) ∧
      price3 o isCall = M.get o.n 0 ∧ triLabels M = .ok L ∧
      (∀ e ∈ L, ∃ i ≤ o.n, ∃ k ≤ 2 * i, e = ((i, (k : ℤ) - i), V i k)) ∧
      (∀ i ≤ o.n, ∀ k ≤ 2 * i, ((i, (k : ℤ) - i), V i k) ∈ L) := by
  obtain ⟨V, hV⟩ := exists_american3 isCall o.S o.K (factors3 o).u (factors3 o).d (factors3 o).pu
    (factors3 o).pm (factors3 o).pd (factors3 o).Df o.n
  obtain ⟨M, h1, h2, h3, h4⟩ := (roll3_amer hV).calcTree
  obtain ⟨L, l1, l2, l3⟩ := triLabels_spec h2 h3 h4
  refine ⟨V, M, L, hV, ?_, h2, h3, h4, ?_, l1, l2, l3⟩
  · simp only [priceTree3, if_neg hn.ne', hty]; exact h1
  · rw [price3_amer hn hty isCall hV, Mat.get, if_pos ⟨by omega, by omega⟩, h4 _ (by omega) _ (by omega),
      if_pos (by omega)]
    simp

end Verif.Props
