import Verif.Props.Tree
import Verif.Lemmas.TreeOrder
import Mathlib.Analysis.Complex.ExponentialBounds

/-! C71–C73: put–call symmetry, volatility and maturity monotonicity of the lattices. -/
namespace Verif.Props
open Real Spec _root_.Verif.Tree Py

/-! ### C71 -/

/-- The mirrored contract: spot and strike exchanged, `r` and `r - b` exchanged. -/
noncomputable def mirrored (o : Opt) : Opt := { o with S := o.K, K := o.S, r := o.r - o.b, b := -o.b }

theorem crr_mirror {o : Opt} (h : TreeValid o) :
    (factors .crr (mirrored o)).u = (factors .crr o).u ∧
    (factors .crr o).Df * ((factors .crr o).p * (factors .crr o).u)
      = (factors .crr (mirrored o)).Df * (1 - (factors .crr (mirrored o)).p) ∧
    (factors .crr o).Df * ((1 - (factors .crr o).p) * (factors .crr o).u⁻¹)
      = (factors .crr (mirrored o)).Df * (factors .crr (mirrored o)).p := by
  have g := good_crr h
  have hlt := g.lt
  have hD : (factors .crr (mirrored o)).Df = (factors .crr o).Df * exp (o.b * (o.t / o.n)) := by
    simp only [factors, mirrored]
    rw [← exp_add]; congr 1; ring
  have hp' : (factors .crr (mirrored o)).p
      = ((exp (o.b * (o.t / o.n)))⁻¹ - (factors .crr o).u⁻¹) / ((factors .crr o).u - (factors .crr o).u⁻¹) := by
    simp only [factors, mirrored, one_div]
    rw [neg_mul, exp_neg]
  have hM := exp_pos (o.b * (o.t / o.n))
  refine ⟨rfl, ?_⟩
  rw [hD, hp', g.p, crr_d_inv]
  rw [crr_d_inv] at hlt
  have hu : 0 < (factors .crr o).u := exp_pos _
  generalize (factors .crr o).u = u at *
  generalize exp (o.b * (o.t / o.n)) = M at *
  have h1 : u - u⁻¹ ≠ 0 := by linarith
  have h2 : u ^ 2 - 1 ≠ 0 := by
    intro h0
    apply h1
    field_simp
    rw [h0, mul_zero]
  constructor <;> (field_simp; ring)

/-- C71. On a CRR lattice, European or American, a call on spot `S` struck at `K` with rates `r, b` is worth the
same as a put on spot `K` struck at `S` with rates `r - b, -b`. -/
theorem C71_crr (o : Opt) (h : TreeValid o) (hty : o.type = "european" ∨ o.type = "american") (isCall : Bool) :
    ∃ x, price .crr o isCall = .ok x ∧
      price .crr ⟨o.K, o.S, o.t, o.r - o.b, -o.b, o.sigma, o.type, o.n⟩ (!isCall) = .ok x := by
  obtain ⟨am, hty⟩ : ∃ am, o.type = typeOf am := by
    rcases hty with h | h
    · exact ⟨false, h⟩
    · exact ⟨true, h⟩
  obtain ⟨V, hV⟩ := exists_val am isCall o.S o.K (factors .crr o).u (factors .crr o).d
    (factors .crr o).p (factors .crr o).Df o.n
  obtain ⟨W, hW⟩ := exists_val am (!isCall) o.K o.S (factors .crr (mirrored o)).u (factors .crr (mirrored o)).d
    (factors .crr (mirrored o)).p (factors .crr (mirrored o)).Df o.n
  refine ⟨_, price_val h.ne hty hV, ?_⟩
  have hw := price_val (o := mirrored o) (c := .crr) h.ne hty hW
  obtain ⟨e1, e2, e3⟩ := crr_mirror h
  rw [crr_d_inv] at hV hW
  rw [e1] at hW
  have := val_dual (exp_pos _) e2 e3 hV hW 0 (by omega) 0 le_rfl
  rw [pow_zero, pow_zero, one_mul, one_mul] at this
  rw [this]
  exact hw

/-- C71 for the trinomial lattice. -/
theorem C71_trinomial (o : Opt) (h : TreeValid o) (hty : o.type = "european" ∨ o.type = "american") (isCall : Bool) :
    ∃ x, price3 o isCall = .ok x ∧
      price3 ⟨o.K, o.S, o.t, o.r - o.b, -o.b, o.sigma, o.type, o.n⟩ (!isCall) = .ok x := by
  have h' : TreeValid (mirrored o) := ⟨h.t, h.sigma, h.n⟩
  have h2 : TreeValid { o with n := 2 * o.n } := ⟨h.t, h.sigma, by show 0 < 2 * o.n; have := h.n; omega⟩
  rcases hty with hty | hty
  · have a := C25_trinomial_eq_crr o h hty isCall
    have b := C25_trinomial_eq_crr (mirrored o) h' hty (!isCall)
    obtain ⟨x, hx, hy⟩ := C71_crr { o with n := 2 * o.n } h2 (Or.inl hty) isCall
    exact ⟨x, a.trans hx, b.trans hy⟩
  · obtain ⟨V, hV⟩ := exists_american3 isCall o.S o.K (factors3 o).u (factors3 o).d (factors3 o).pu
      (factors3 o).pm (factors3 o).pd (factors3 o).Df o.n
    obtain ⟨W, hW⟩ := exists_american3 (!isCall) o.K o.S (factors3 (mirrored o)).u (factors3 (mirrored o)).d
      (factors3 (mirrored o)).pu (factors3 (mirrored o)).pm (factors3 (mirrored o)).pd (factors3 (mirrored o)).Df o.n
    refine ⟨_, price3_amer h.n hty isCall hV, ?_⟩
    have hw := price3_amer (o := mirrored o) h.n hty (!isCall) hW
    obtain ⟨e1, e2, e3, e4, e5, e6⟩ := factors3_eq h
    obtain ⟨f1, f2, f3, f4, f5, f6⟩ := factors3_eq h'
    obtain ⟨g1, g2, g3⟩ := crr_mirror h2
    rw [e1, e2, e3, e4, e5, e6] at hV
    rw [f1, f2, f3, f4, f5, f6] at hW
    have g1' : (factors .crr { mirrored o with n := 2 * (mirrored o).n }).u = (factors .crr { o with n := 2 * o.n }).u := g1
    rw [g1'] at hW
    have := american3_dual (exp_pos _) g2 g3 hV hW 0 (by omega) 0 le_rfl
    rw [pow_zero, pow_zero, one_mul, one_mul] at this
    rw [this]
    exact hw

example (type : String) (h : type = "european" ∨ type = "american") :
    ∃ x, price .crr (exampleTree type) true = .ok x ∧
      price .crr ⟨50, 50, 5 / 12, 1 / 10 - 1 / 10, -(1 / 10), 2 / 5, type, 5⟩ false = .ok x :=
  C71_crr (exampleTree type) (exampleTree_valid type) h true

/-! ### C72 -/

theorem type_cases {o : Opt} (hty : o.type = "european" ∨ o.type = "american") : ∃ am, o.type = typeOf am := by
  rcases hty with h | h
  · exact ⟨false, h⟩
  · exact ⟨true, h⟩

/-- A binomial price is the value function at the spot. -/
theorem price_vf {c : Cls} {o : Opt} {am : Bool} (hn : 0 < o.n) (hty : o.type = typeOf am) (isCall : Bool) :
    price c o isCall = .ok (vf am isCall o.K (binOp (factors c o).Df (factors c o).p (factors c o).u (factors c o).d) o.n o.S) := by
  obtain ⟨V, hV⟩ := exists_val am isCall o.S o.K (factors c o).u (factors c o).d (factors c o).p (factors c o).Df o.n
  rw [price_val hn.ne' hty hV, vf_val hV 0 (by omega) 0 le_rfl]
  simp [node]

theorem price3_vf {o : Opt} (h : TreeValid o) (hty : o.type = "american") (isCall : Bool) :
    let g := factors .crr { o with n := 2 * o.n }
    price3 o isCall = .ok (vf true isCall o.K (fun f =>
      binOp g.Df g.p g.u g.u⁻¹ (binOp g.Df g.p g.u g.u⁻¹ f)) o.n o.S) := by
  intro g
  obtain ⟨V, hV⟩ := exists_american3 isCall o.S o.K (factors3 o).u (factors3 o).d (factors3 o).pu
    (factors3 o).pm (factors3 o).pd (factors3 o).Df o.n
  rw [price3_amer h.n hty isCall hV]
  obtain ⟨e1, e2, e3, e4, e5, e6⟩ := factors3_eq h
  rw [e1, e2, e3, e4, e5, e6] at hV
  rw [vf_american3 (exp_pos _) hV 0 (by omega) 0 le_rfl]
  simp only [node3, Nat.sub_zero, pow_zero, mul_one]
  rfl

/-- The one-step operators of two CRR lattices differing in volatility. -/
theorem crr_spread {o : Opt} (h : TreeValid o) {σ' : ℝ} (hσ : o.sigma ≤ σ') (hp : |o.b| * √(o.t / o.n) ≤ o.sigma) :
    let f := factors .crr o
    let f' := factors .crr { o with sigma := σ' }
    GoodOp (binOp f.Df f.p f.u f.d) ∧ GoodOp (binOp f'.Df f'.p f'.u f'.d) ∧
      ∀ g, Cvx g → ∀ s, binOp f.Df f.p f.u f.d g s ≤ binOp f'.Df f'.p f'.u f'.d g s := by
  intro f f'
  have h' : TreeValid { o with sigma := σ' } := ⟨h.t, h.sigma.trans_le hσ, h.n⟩
  obtain ⟨p0, p1⟩ := crr_prob h hp
  obtain ⟨q0, q1⟩ := crr_prob h' (hp.trans hσ)
  have g := good_crr h
  have g' := good_crr h'
  have hD : f.Df = f'.Df := rfl
  refine ⟨goodOp_bin (Df_nonneg _) p0 p1 _ _, goodOp_bin (Df_nonneg _) q0 q1 _ _, fun F hF s => ?_⟩
  rw [← hD]
  refine spread_le hF (Df_nonneg _) p0 p1 ?_ g.lt.le ?_ g'.lt (g.mean.trans g'.mean.symm) s
  · rw [crr_d, crr_d]
    refine exp_le_exp.2 (neg_le_neg ?_)
    exact mul_le_mul_of_nonneg_right hσ (sqrt_nonneg _)
  · exact exp_le_exp.2 (mul_le_mul_of_nonneg_right hσ (sqrt_nonneg _))

/-- C72 for the CRR lattice: with admissible weights, every price, European or American, is nondecreasing in
volatility. -/
theorem C72_crr (o : Opt) (h : TreeValid o) (hp : |o.b| * √(o.t / o.n) ≤ o.sigma) (σ' : ℝ) (hσ : o.sigma ≤ σ')
    (hty : o.type = "european" ∨ o.type = "american") (isCall : Bool) :
    ∃ x y, price .crr o isCall = .ok x ∧ price .crr { o with sigma := σ' } isCall = .ok y ∧ x ≤ y := by
  obtain ⟨am, hty⟩ := type_cases hty
  obtain ⟨h1, h2, h3⟩ := crr_spread h hσ hp
  exact ⟨_, _, price_vf h.n hty isCall, price_vf (o := { o with sigma := σ' }) h.n hty isCall,
    vf_le h1 h2 h3 am isCall o.K o.n o.S⟩

/-- C72 for the trinomial lattice. -/
theorem C72_trinomial (o : Opt) (h : TreeValid o) (hp : |o.b| * √(o.t / o.n / 2) ≤ o.sigma) (σ' : ℝ)
    (hσ : o.sigma ≤ σ') (hty : o.type = "european" ∨ o.type = "american") (isCall : Bool) :
    ∃ x y, price3 o isCall = .ok x ∧ price3 { o with sigma := σ' } isCall = .ok y ∧ x ≤ y := by
  have h' : TreeValid { o with sigma := σ' } := ⟨h.t, h.sigma.trans_le hσ, h.n⟩
  have h2 : TreeValid { o with n := 2 * o.n } := ⟨h.t, h.sigma, by show 0 < 2 * o.n; have := h.n; omega⟩
  have hdt : o.t / ((2 * o.n : ℕ) : ℝ) = o.t / o.n / 2 := by push_cast; field_simp
  have hp2 : |o.b| * √(o.t / ((2 * o.n : ℕ) : ℝ)) ≤ o.sigma := by rwa [hdt]
  rcases hty with hty | hty
  · rw [C25_trinomial_eq_crr o h hty, C25_trinomial_eq_crr _ h' hty]
    exact C72_crr { o with n := 2 * o.n } h2 hp2 σ' hσ (Or.inl hty) isCall
  · obtain ⟨h1, h2, h3⟩ := crr_spread h2 hσ hp2
    rw [crr_d_inv, crr_d_inv] at h3
    rw [crr_d_inv] at h1 h2
    exact ⟨_, _, price3_vf h hty isCall, price3_vf h' hty isCall,
      vf_le (h1.comp h1) (h2.comp h2) (comp_le h1 h2 h3) true isCall o.K o.n o.S⟩

example : ∃ x y, price .crr (exampleTree "american") false = .ok x ∧
    price .crr ⟨50, 50, 5 / 12, 1 / 10, 1 / 10, 1 / 2, "american", 5⟩ false = .ok y ∧ x ≤ y :=
  C72_crr (exampleTree "american") (exampleTree_valid _) (exampleTree_prob .crr _ rfl) (1 / 2)
    (by norm_num [exampleTree]) (Or.inr rfl) false

/-- TIAN's down factor relative to the mean decreases, and the up factor increases, while `V ≤ 3/2`. -/
theorem tian_spread {V V' : ℝ} (h1 : 1 < V) (hV : V ≤ V') (h2 : V' ≤ 3 / 2) :
    V' / 2 * (V' + 1 - √(V' * V' + 2 * V' - 3)) ≤ V / 2 * (V + 1 - √(V * V + 2 * V - 3)) ∧
    V / 2 * (V + 1 + √(V * V + 2 * V - 3)) ≤ V' / 2 * (V' + 1 + √(V' * V' + 2 * V' - 3)) := by
  have h1' : 1 < V' := by linarith
  have q : 0 < V * V + 2 * V - 3 := by nlinarith
  have q' : 0 < V' * V' + 2 * V' - 3 := by nlinarith
  have hle : V * V + 2 * V - 3 ≤ V' * V' + 2 * V' - 3 := by nlinarith
  have hs := sqrt_le_sqrt hle
  have sq1 := sq_sqrt q.le
  have sq2 := sq_sqrt q'.le
  have s0 := sqrt_nonneg (V * V + 2 * V - 3)
  set s := √(V * V + 2 * V - 3)
  set s' := √(V' * V' + 2 * V' - 3)
  refine ⟨?_, ?_⟩
  · -- `w` is the smaller root of `w² - V(V+1) w + V²`; at `V'` this polynomial is nonpositive at `w`.
    set w := V / 2 * (V + 1 - s) with hw
    have root : w ^ 2 - V * (V + 1) * w + V ^ 2 = 0 := by
      rw [hw]; linear_combination V ^ 2 / 4 * sq1
    have w34 : 3 / 4 ≤ w := by
      by_contra hc
      push Not at hc
      have hp : 0 < V * (V + 1) - w - 3 / 4 := by nlinarith
      nlinarith [sq_nonneg (V / 2 - 3 / 4), mul_pos hp (sub_pos.2 hc)]
    have wle : w ≤ 1 := by
      obtain ⟨-, k, -⟩ := tian_aux one_pos h1
      have : w = 1 * V / 2 * (V + 1 - s) := by rw [hw]; ring
      linarith
    have neg : w ^ 2 - V' * (V' + 1) * w + V' ^ 2 ≤ 0 := by
      have e : w ^ 2 - V' * (V' + 1) * w + V' ^ 2 = (V' - V) * ((V + V') - (V + V' + 1) * w) := by
        linear_combination root
      rw [e]
      refine mul_nonpos_of_nonneg_of_nonpos (by linarith) ?_
      nlinarith
    by_contra hc
    push Not at hc
    -- both roots of the polynomial at `V'` would lie above `w`
    have r1 : w < V' / 2 * (V' + 1 - s') := hc
    have r2 : V' / 2 * (V' + 1 - s') ≤ V' / 2 * (V' + 1 + s') := by
      have : 0 ≤ s' := sqrt_nonneg _
      nlinarith
    have fac : w ^ 2 - V' * (V' + 1) * w + V' ^ 2
        = (w - V' / 2 * (V' + 1 - s')) * (w - V' / 2 * (V' + 1 + s')) := by
      linear_combination V' ^ 2 / 4 * sq2
    rw [fac] at neg
    nlinarith [mul_pos_of_neg_of_neg (sub_neg.2 r1) (sub_neg.2 (r1.trans_le r2))]
  · have : 0 ≤ s' := sqrt_nonneg _
    gcongr

/-- C72 for the TIAN lattice, as far as it holds: while `exp(σ'² dt) ≤ 3/2`. -/
theorem C72_tian_partial (o : Opt) (h : TreeValid o) (σ' : ℝ) (hσ : o.sigma ≤ σ')
    (hsmall : exp (σ' ^ 2 * (o.t / o.n)) ≤ 3 / 2)
    (hty : o.type = "european" ∨ o.type = "american") (isCall : Bool) :
    ∃ x y, price .tian o isCall = .ok x ∧ price .tian { o with sigma := σ' } isCall = .ok y ∧ x ≤ y := by
  obtain ⟨am, hty⟩ := type_cases hty
  have h' : TreeValid { o with sigma := σ' } := ⟨h.t, h.sigma.trans_le hσ, h.n⟩
  have hV : 1 < exp (o.sigma ^ 2 * (o.t / o.n)) := one_lt_exp_iff.2 (mul_pos (pow_pos h.sigma 2) h.dt)
  have hVV : exp (o.sigma ^ 2 * (o.t / o.n)) ≤ exp (σ' ^ 2 * (o.t / o.n)) :=
    exp_le_exp.2 (mul_le_mul_of_nonneg_right (pow_le_pow_left₀ h.sigma.le hσ 2) h.dt.le)
  obtain ⟨k1, k2⟩ := tian_spread hV hVV hsmall
  have hM := exp_pos (o.b * (o.t / o.n))
  obtain ⟨p0, p1⟩ := tian_prob h
  obtain ⟨q0, q1⟩ := tian_prob h'
  have g := good_tian h
  have g' := good_tian h'
  refine ⟨_, _, price_vf h.n hty isCall, price_vf (o := { o with sigma := σ' }) h.n hty isCall,
    vf_le (goodOp_bin (Df_nonneg _) p0.le p1.le _ _) (goodOp_bin (Df_nonneg _) q0.le q1.le _ _)
      (fun F hF s => ?_) am isCall o.K o.n o.S⟩
  refine spread_le hF (Df_nonneg .tian) p0.le p1.le ?_ g.lt.le ?_ g'.lt (g.mean.trans g'.mean.symm) s
  · simp only [factors]
    nlinarith
  · simp only [factors]
    nlinarith

/-- One-step European prices. -/
theorem price_one {c : Cls} {o : Opt} (hn : o.n = 1) (hty : o.type = "european") (isCall : Bool) :
    price c o isCall = .ok ((factors c o).Df * ((factors c o).p * payoff isCall (o.S * (factors c o).u) o.K
      + (1 - (factors c o).p) * payoff isCall (o.S * (factors c o).d) o.K)) := by
  rw [price_vf (am := false) (by omega) hty isCall, hn]
  simp [vf, binOp]

/-- C72 fails for TIAN: at the money with one step and zero rates, the put is worth `2/9` at `σ² = log (3/2)` but less
at the larger volatility `σ² = log 4`. -/
theorem C72_tian_fails : ∃ x y, price .tian ⟨1, 1, 1, 0, 0, √(log (3 / 2)), "european", 1⟩ false = .ok x ∧
    price .tian ⟨1, 1, 1, 0, 0, √(log 4), "european", 1⟩ false = .ok y ∧
    √(log (3 / 2)) < √(log 4) ∧ y < x := by
  have hl1 : (0 : ℝ) < log (3 / 2) := log_pos (by norm_num)
  have hl2 : (0 : ℝ) < log 4 := log_pos (by norm_num)
  refine ⟨_, _, price_one rfl rfl false, price_one rfl rfl false,
    sqrt_lt_sqrt hl1.le (log_lt_log (by norm_num) (by norm_num)), ?_⟩
  have e1 : √((3 : ℝ) / 2 * (3 / 2) + 2 * (3 / 2) - 3) = 3 / 2 := by
    rw [show (3 : ℝ) / 2 * (3 / 2) + 2 * (3 / 2) - 3 = (3 / 2) ^ 2 by norm_num]
    exact sqrt_sq (by norm_num)
  have e2 := sq_sqrt (show (0 : ℝ) ≤ 4 * 4 + 2 * 4 - 3 by norm_num)
  have e3 := sqrt_nonneg ((4 : ℝ) * 4 + 2 * 4 - 3)
  simp only [factors, Nat.cast_one, div_one, mul_one, zero_mul, neg_zero, exp_zero, one_mul, sq_sqrt hl1.le, sq_sqrt hl2.le,
    exp_log (show (0 : ℝ) < 3 / 2 by norm_num), exp_log (show (0 : ℝ) < 4 by norm_num), e1, payoff, Bool.false_eq_true,
    if_false]
  set s := √((4 : ℝ) * 4 + 2 * 4 - 3)
  have s1 : 9 / 2 < s := by nlinarith
  have s2 : s < 23 / 5 := by nlinarith
  have m1 : max (1 - 4 / 2 * (4 + 1 + s)) 0 = 0 := max_eq_right (by linarith)
  have m2 : max (1 - 4 / 2 * (4 + 1 - s)) 0 = 1 - 4 / 2 * (4 + 1 - s) := max_eq_left (by linarith)
  have m3 : max (1 - (3 : ℝ) / 2 / 2 * (3 / 2 + 1 + 3 / 2)) 0 = 0 := max_eq_right (by norm_num)
  have m4 : max (1 - (3 : ℝ) / 2 / 2 * (3 / 2 + 1 - 3 / 2)) 0 = 1 / 4 := by
    rw [max_eq_left] <;> norm_num
  rw [m1, m2, m3, m4]
  have hp : 0 ≤ (1 - 4 / 2 * (4 + 1 - s)) / (4 / 2 * (4 + 1 + s) - 4 / 2 * (4 + 1 - s)) :=
    div_nonneg (by linarith) (by linarith)
  have : (1 - (1 - 4 / 2 * (4 + 1 - s)) / (4 / 2 * (4 + 1 + s) - 4 / 2 * (4 + 1 - s))) * (1 - 4 / 2 * (4 + 1 - s))
      ≤ 1 - 4 / 2 * (4 + 1 - s) := by nlinarith
  have k : (1 : ℝ) - 4 / 2 * (4 + 1 - s) < 2 / 9 := by nlinarith
  norm_num at this k ⊢
  linarith

/-- C72 fails for JR: its mean falls with volatility, and so does a call deep in the money. -/
theorem C72_jr_fails : ∃ x y, price .jr ⟨100, 1, 1, 0, 0, 1, "european", 1⟩ true = .ok x ∧
    price .jr ⟨100, 1, 1, 0, 0, 2, "european", 1⟩ true = .ok y ∧ y < x := by
  refine ⟨_, _, price_one rfl rfl true, price_one rfl rfl true, ?_⟩
  simp only [factors, Nat.cast_one, div_one, mul_one, zero_sub, neg_zero, exp_zero, one_mul, sqrt_one, payoff, if_true]
  have h1 : (3 : ℝ) / 2 ≤ exp (1 / 2) := by have := add_one_le_exp (1 / 2 : ℝ); linarith
  have e1 : exp 1 < 2.7182818286 := exp_one_lt_d9
  have k1 : (1 : ℝ) < 100 * exp (-(3 / 2)) := by
    have : exp (3 / 2) ≤ exp 1 ^ 2 := by rw [← exp_nat_mul]; exact exp_le_exp.2 (by norm_num)
    have : exp (3 / 2) < 100 := by nlinarith [exp_pos 1]
    rw [exp_neg, ← div_eq_mul_inv, lt_div_iff₀ (exp_pos _)]
    linarith
  have h4 : exp 1 ^ 4 = exp 4 := by rw [← exp_nat_mul]; norm_num
  have k2 : exp 4 < 100 := by
    rw [← h4]
    have : exp 1 ^ 2 < 9 := by nlinarith [exp_pos 1]
    nlinarith [sq_nonneg (exp 1)]
  have k3 : (1 : ℝ) < 100 * exp (-4) := by
    rw [exp_neg, ← div_eq_mul_inv, lt_div_iff₀ (exp_pos _)]
    linarith
  have k4 : exp (-4) < 1 / 2 := by
    rw [exp_neg, inv_lt_comm₀ (exp_pos _) (by norm_num)]
    have := add_one_le_exp (4 : ℝ)
    norm_num
    linarith
  have a1 : (-(1 ^ 2 / 2) + 1 : ℝ) = 1 / 2 := by norm_num
  have a2 : (-(1 ^ 2 / 2) - 1 : ℝ) = -(3 / 2) := by norm_num
  have a3 : (-(2 ^ 2 / 2) + 2 : ℝ) = 0 := by norm_num
  have a4 : (-(2 ^ 2 / 2) - 2 : ℝ) = -4 := by norm_num
  rw [a1, a2, a3, a4, exp_zero, max_eq_left, max_eq_left, max_eq_left, max_eq_left]
  · linarith
  all_goals linarith

/-! ### C73 -/

theorem binOp_nonneg {D p : ℝ} (hD : 0 ≤ D) (h0 : 0 ≤ p) (h1 : p ≤ 1) (u d : ℝ) (f : ℝ → ℝ) (hf : ∀ s, 0 ≤ f s) (s : ℝ) :
    0 ≤ binOp D p u d f s := by
  have := hf (s * u)
  have := hf (s * d)
  have : 0 ≤ 1 - p := by linarith
  unfold binOp
  positivity

theorem vf_american_mono {T : (ℝ → ℝ) → ℝ → ℝ} (hT : GoodOp T) (h0 : ∀ f, (∀ s, 0 ≤ f s) → ∀ s, 0 ≤ T f s)
    (isCall : Bool) (K : ℝ) (s : ℝ) : Monotone fun m => vf true isCall K T m s :=
  monotone_nat_of_le_succ fun m => vf_american_succ hT h0 isCall K m s

/-- C73. Prolonging an American option by `m` further periods of the same length never lowers its lattice price. -/
theorem C73_binomial (c : Cls) (o : Opt) (h : TreeValid o) (hp : ProbOK c o) (hty : o.type = "american") (m : ℕ)
    (isCall : Bool) :
    ∃ x y, price c o isCall = .ok x ∧
      price c { o with t := o.t * (o.n + m) / o.n, n := o.n + m } isCall = .ok y ∧ x ≤ y := by
  have hn : (0 : ℝ) < o.n := by exact_mod_cast h.n
  have hf : factors c { o with t := o.t * (o.n + m) / o.n, n := o.n + m } = factors c o := by
    have e : o.t * (o.n + m) / o.n / ((o.n + m : ℕ) : ℝ) = o.t / o.n := by
      push_cast
      have : (o.n : ℝ) + m ≠ 0 := by positivity
      field_simp
    cases c <;> simp only [factors, e]
  obtain ⟨p0, p1⟩ := prob_ok h hp
  refine ⟨_, _, price_vf (am := true) h.n hty isCall,
    price_vf (o := { o with t := o.t * (o.n + m) / o.n, n := o.n + m }) (am := true) (Nat.add_pos_left h.n m) hty isCall, ?_⟩
  rw [hf]
  exact vf_american_mono (goodOp_bin (Df_nonneg _) p0 p1 _ _) (binOp_nonneg (Df_nonneg _) p0 p1 _ _) isCall o.K o.S
    (Nat.le_add_right _ _)

/-- C73 for the trinomial lattice. -/
theorem C73_trinomial (o : Opt) (h : TreeValid o) (hp : |o.b| * √(o.t / o.n / 2) ≤ o.sigma) (hty : o.type = "american")
    (m : ℕ) (isCall : Bool) :
    ∃ x y, price3 o isCall = .ok x ∧
      price3 { o with t := o.t * (o.n + m) / o.n, n := o.n + m } isCall = .ok y ∧ x ≤ y := by
  have hn : (0 : ℝ) < o.n := by exact_mod_cast h.n
  have h' : TreeValid { o with t := o.t * (o.n + m) / o.n, n := o.n + m } := by
    refine ⟨?_, h.sigma, Nat.add_pos_left h.n m⟩
    have := h.t
    show 0 < o.t * (o.n + m) / o.n
    positivity
  have hf : factors .crr { o with t := o.t * (o.n + m) / o.n, n := 2 * (o.n + m) } = factors .crr { o with n := 2 * o.n } := by
    have e : o.t * (o.n + m) / o.n / ((2 * (o.n + m) : ℕ) : ℝ) = o.t / ((2 * o.n : ℕ) : ℝ) := by
      push_cast
      have : (o.n : ℝ) + m ≠ 0 := by positivity
      field_simp
    simp only [factors, e]
  have h2 : TreeValid { o with n := 2 * o.n } := ⟨h.t, h.sigma, by show 0 < 2 * o.n; have := h.n; omega⟩
  have hdt : o.t / ((2 * o.n : ℕ) : ℝ) = o.t / o.n / 2 := by push_cast; field_simp
  obtain ⟨p0, p1⟩ := crr_prob h2 (by show |o.b| * √(o.t / ((2 * o.n : ℕ) : ℝ)) ≤ o.sigma; rwa [hdt])
  refine ⟨_, _, price3_vf h hty isCall, price3_vf h' hty isCall, ?_⟩
  simp only [hf]
  have g := goodOp_bin (Df_nonneg (o := { o with n := 2 * o.n }) .crr) p0 p1 (factors .crr { o with n := 2 * o.n }).u
    (factors .crr { o with n := 2 * o.n }).u⁻¹
  have z := binOp_nonneg (Df_nonneg (o := { o with n := 2 * o.n }) .crr) p0 p1 (factors .crr { o with n := 2 * o.n }).u
    (factors .crr { o with n := 2 * o.n }).u⁻¹
  exact vf_american_mono (g.comp g) (fun f hf => z _ (z f hf)) isCall o.K o.S (Nat.le_add_right _ _)

example (c : Cls) : ∃ x y, price c (exampleTree "american") false = .ok x ∧
    price c { exampleTree "american" with t := (exampleTree "american").t * ((exampleTree "american").n + 1) / (exampleTree "american").n, n := 6 } false = .ok y ∧ x ≤ y := by
  have := C73_binomial c (exampleTree "american") (exampleTree_valid _) (exampleTree_prob c _) rfl 1 false
  simpa [exampleTree] using this

end Verif.Props
