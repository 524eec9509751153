import Verif.Lemmas.Rounding
import Mathlib.Analysis.SpecialFunctions.Trigonometric.Series
import Mathlib.Analysis.Complex.ExponentialBounds

/-! C85: tree prices computed with rounding after every operation. -/
namespace Verif.Props
open Verif Verif.Spec Real Py _root_.Verif.Tree

/-! ### Exact arithmetic gives the pricers of `Model/Tree` -/

theorem setI_getI {R : Type} (l : List R) (i : ℕ) (v : R) (tr : List R) :
    (Prod.fst <$> (do
      let ov' ← setI l i v
      let x ← getI ov' i
      return (ov', tr ++ [x]) : Except PyErr (List R × List R))) = setI l i v := by
  by_cases h : i < l.length
  · rw [setI_ok h]
    change Prod.fst <$> (do let x ← getI (l.set i v) i; return (l.set i v, tr ++ [x])) = _
    rw [getI_ok (x := v) (by simp [h])]
    rfl
  · simp [setI, h]
    rfl

theorem bind_fst {α β γ : Type} (x : Except PyErr γ) (f : γ → Except PyErr (α × β)) (g : γ → Except PyErr α)
    (h : ∀ y, (Prod.fst <$> f y) = g y) : (Prod.fst <$> (x >>= f)) = x >>= g := by
  cases x with
  | error e => rfl
  | ok y => exact h y

theorem terminal_exact (S K u d z : ℝ) (n : ℕ) :
    TreeFl.terminal Arith.exact S K u d z n = Tree.terminal S K u d z n := rfl

theorem euro_exact (ov : List ℝ) (n : ℕ) (Df p : ℝ) :
    TreeFl.euro Arith.exact ov n Df p = (Prod.fst <$> Tree.euro ov n Df p) := by
  symm
  unfold Tree.euro TreeFl.euro
  refine foldlM_fst _ _ (fun st j => ?_) _ _
  refine foldlM_fst _ _ (fun st i => ?_) _ _
  exact bind_fst _ _ _ fun hi => bind_fst _ _ _ fun lo => setI_getI _ _ _ _

theorem amer_exact (ov : List ℝ) (n : ℕ) (Df p K d S u z : ℝ) :
    TreeFl.amer Arith.exact ov n Df p K d S u z = (Prod.fst <$> Tree.amer ov n Df p K d S u z) := by
  symm
  unfold Tree.amer TreeFl.amer
  refine foldlM_fst _ _ (fun st j => ?_) _ _
  refine foldlM_fst _ _ (fun st i => ?_) _ _
  exact bind_fst _ _ _ fun hi => bind_fst _ _ _ fun lo => setI_getI _ _ _ _

theorem roll_exact (S K u d p Df z : ℝ) (n : ℕ) (type : String) :
    TreeFl.roll Arith.exact S K u d p Df z n type = (Prod.fst <$> Tree.roll S K u d p Df z n type) := by
  unfold TreeFl.roll Tree.roll
  rw [terminal_exact]
  dsimp only
  split_ifs
  · exact euro_exact _ _ _ _
  · exact amer_exact _ _ _ _ _ _ _ _ _
  · rfl

theorem calcPrice_exact (S K u d p Df z : ℝ) (n : ℕ) (type : String) :
    TreeFl.calcPrice Arith.exact S K u d p Df z n type = Tree.calcPrice S K u d p Df z n type := by
  unfold TreeFl.calcPrice Tree.calcPrice
  rw [roll_exact]
  cases Tree.roll S K u d p Df z n type <;> rfl

/-- C85: with exact arithmetic the rounded pricer of each binomial class is the pricer of the other
properties. -/
theorem C85_exact (c : Cls) (o : Opt) (isCall : Bool) :
    TreeFl.price Arith.exact c o isCall = Tree.price c o isCall := by
  unfold TreeFl.price Tree.price
  split_ifs
  · rfl
  · dsimp only
    rw [calcPrice_exact]
    cases c <;> rfl

/-! ### Error bounds for given factors -/

/-- C85: binomial trees. The factors handed to the loops are known up to relative errors `exp a - 1`
(moves), `exp c - 1` (both weights) and `exp g - 1` (discount factor); every operation has relative error
at most `e`. The result differs from the exact value by at most the stated multiple of `S + K`. -/
theorem C85_binomial {e : ℝ} {A : Arith} (hA : Rounded e A) (he : 0 ≤ e)
    {S K u d p Df u' d' p' Df' a c g M : ℝ} (hS : 0 ≤ S) (hK : 0 ≤ K)
    (hu0 : 0 ≤ u) (hd0 : 0 ≤ d) (hp0 : 0 ≤ p) (hp1 : p ≤ 1) (hD0 : 0 ≤ Df)
    (hu : |u' - u| ≤ (exp a - 1) * u) (hd : |d' - d| ≤ (exp a - 1) * d)
    (hp : |p' - p| ≤ (exp c - 1) * p) (hq : |p' - p| ≤ (exp c - 1) * (1 - p))
    (hD : |Df' - Df| ≤ (exp g - 1) * Df) (ha : 0 ≤ a) (hc : 0 ≤ c) (hg : 0 ≤ g)
    (hM : 1 ≤ M) (hM1 : Df ≤ M) (hM2 : Df * (p * u + (1 - p) * d) ≤ M)
    (isCall : Bool) (n : ℕ) (type : String) (htype : type = "european" ∨ type = "american") :
    ∃ v' v, TreeFl.calcPrice A S K u' d' p' Df' (zOf isCall) n type = .ok v' ∧
      Tree.calcPrice S K u d p Df (zOf isCall) n type = .ok v ∧
      |v' - v| ≤ (exp ((8 + 4 * n) * log (1 + e) + n * (a + c + g)) - 1) * (M ^ n * (S + K)) := by
  obtain ⟨am, rfl⟩ : ∃ am, typeOf am = type := by
    rcases htype with rfl | rfl
    exacts [⟨false, rfl⟩, ⟨true, rfl⟩]
  have hq' : Err c (1 - p') (1 - p) (1 - p) :=
    ⟨by rw [show 1 - p' - (1 - p) = -(p' - p) by ring, abs_neg]; exact hq,
      (abs_of_nonneg (by linarith)).le⟩
  obtain ⟨v', v, h1, h2, h3⟩ := binomial_err hA he hS hK ⟨hu, (abs_of_nonneg hu0).le⟩
    ⟨hd, (abs_of_nonneg hd0).le⟩ ⟨hp, (abs_of_nonneg hp0).le⟩ hq' ⟨hD, (abs_of_nonneg hD0).le⟩
    ha hc hg hM hM1 hM2 am isCall n
  exact ⟨v', v, h1, h2, h3.err⟩

/-- C85: trinomial trees. -/
theorem C85_trinomial {e : ℝ} {A : Arith} (hA : Rounded e A) (he : 0 ≤ e)
    {S K u d pu pm pd Df u' d' pu' pm' pd' Df' a c g M : ℝ} (hS : 0 ≤ S) (hK : 0 ≤ K)
    (hud : u * d = 1) (hu0 : 0 ≤ u) (hd0 : 0 ≤ d) (hpu0 : 0 ≤ pu) (hpm0 : 0 ≤ pm) (hpd0 : 0 ≤ pd)
    (hD0 : 0 ≤ Df)
    (hu : |u' - u| ≤ (exp a - 1) * u) (hd : |d' - d| ≤ (exp a - 1) * d)
    (hpu : |pu' - pu| ≤ (exp c - 1) * pu) (hpm : |pm' - pm| ≤ (exp c - 1) * pm)
    (hpd : |pd' - pd| ≤ (exp c - 1) * pd)
    (hD : |Df' - Df| ≤ (exp g - 1) * Df) (ha : 0 ≤ a) (hc : 0 ≤ c) (hg : 0 ≤ g)
    (hM : 1 ≤ M) (hM1 : Df * (pu + pm + pd) ≤ M) (hM2 : Df * (pu * u + pm + pd * d) ≤ M)
    (isCall : Bool) (n : ℕ) (type : String) (htype : type = "european" ∨ type = "american") :
    ∃ v' v, TreeFl.calcPrice3 A S K u' d' pu' pd' pm' Df' (zOf isCall) n type = .ok v' ∧
      Tree.calcPrice3 S K u d pu pd pm Df (zOf isCall) n type = .ok v ∧
      |v' - v| ≤ (exp ((6 + 4 * n) * log (1 + e) + n * (a + c + g)) - 1) * (M ^ n * (S + K)) := by
  obtain ⟨am, rfl⟩ : ∃ am, typeOf am = type := by
    rcases htype with rfl | rfl
    exacts [⟨false, rfl⟩, ⟨true, rfl⟩]
  obtain ⟨v', v, h1, h2, h3⟩ := trinomial_err hA he hS hK hud ⟨hu, (abs_of_nonneg hu0).le⟩
    ⟨hd, (abs_of_nonneg hd0).le⟩ ⟨hpu, (abs_of_nonneg hpu0).le⟩ ⟨hpm, (abs_of_nonneg hpm0).le⟩
    ⟨hpd, (abs_of_nonneg hpd0).le⟩ ⟨hD, (abs_of_nonneg hD0).le⟩
    ha hc hg hM hM1 hM2 am isCall n
  exact ⟨v', v, h1, h2, h3.err⟩

/-! ### Whole computations -/

section factors
variable {e : ℝ} {A : Arith} (hA : Rounded e A) (he : 0 ≤ e) (he1 : e ≤ 1)
include hA he he1

/-- `sqrt(t / n)`. -/
theorem sqrt_dt_err {t : ℝ} (ht : 0 ≤ t) (n : ℕ) :
    Err (2 * log (1 + e)) (A.sqrt (A.div t n)) (√(t / n)) (√(t / n)) := by
  have h0 : 0 ≤ t / n := by positivity
  have h1 : |A.div t n - t / n| ≤ e * (t / n) := by
    have := hA.div t n
    rwa [abs_of_nonneg h0] at this
  have h2 : Err (log (1 + e)) (√(A.div t n)) (√(t / n)) (√(t / n)) := by
    refine ⟨?_, (abs_of_nonneg (sqrt_nonneg _)).le⟩
    rw [exp_log (by linarith), add_sub_cancel_left]
    exact sqrt_relative he1 h0 h1
  have h3 := h2.round he (z := A.sqrt (A.div t n)) (by
    rw [abs_of_nonneg (sqrt_nonneg (A.div t n))]; exact hA.sqrt _)
  exact h3.mono (by ring_nf; exact le_rfl)

omit he1 in
theorem dt_err {t : ℝ} (ht : 0 ≤ t) (n : ℕ) : Err (log (1 + e)) (A.div t n) (t / n) (t / n) := by
  have h0 : 0 ≤ t / n := by positivity
  have h1 := (Err.rfl' (y := t / n) (abs_of_nonneg h0).le).round he (hA.div t n)
  rwa [zero_add] at h1

omit he1 in
/-- `exp(x * dt)`. -/
theorem exp_dt_err {t : ℝ} (ht : 0 ≤ t) (n : ℕ) (x : ℝ) :
    Err ((exp (2 * log (1 + e)) - 1) * (|x| * (t / n)) + log (1 + e))
      (A.exp (A.mul x (A.div t n))) (exp (x * (t / n))) (exp (x * (t / n))) := by
  have h1 := ((Err.rfl' (y := x) le_rfl).mul (dt_err hA he ht n)).round he (hA.mul _ _)
  have h2 := (h1.mono (θ' := 2 * log (1 + e)) (by ring_nf; exact le_rfl)).exp'
  exact h2.round he (by rw [abs_of_pos (exp_pos _)]; exact hA.exp _)

end factors

theorem growth_le {b r s dt : ℝ} (hdt : 0 ≤ dt) (hs : s ≤ max 0 (max (b - r) (-r))) :
    exp (s * dt) ≤ exp (max 0 (max (b - r) (-r)) * dt) := by
  gcongr

/-- C85: JR trees from the parameters to the price. -/
theorem C85_jr {e : ℝ} {A : Arith} (hA : Rounded e A) (he : 0 ≤ e) (he1 : e ≤ 1) (o : Opt)
    (hS : 0 ≤ o.S) (hK : 0 ≤ o.K) (ht : 0 ≤ o.t) (hσ : 0 ≤ o.sigma) (hn : o.n ≠ 0)
    (htype : o.type = "european" ∨ o.type = "american") (isCall : Bool) :
    ∃ v' v, TreeFl.price A .jr o isCall = .ok v' ∧ Tree.price .jr o isCall = .ok v ∧
      |v' - v| ≤ (exp ((8 + 6 * o.n) * log (1 + e) + ((1 + e) ^ 6 - 1) *
          ((|o.b| + o.sigma ^ 2 / 2 + |o.r|) * o.t + o.sigma * √(o.n * o.t))) - 1)
        * (exp (max 0 (max (o.b - o.r) (-o.r)) * o.t) * (o.S + o.K)) := by
  obtain ⟨S, K, t, r, b, σ, type, n⟩ := o
  dsimp only at *
  have hL : 0 ≤ log (1 + e) := log_nonneg (by linarith)
  have hn' : (0 : ℝ) < n := by exact_mod_cast Nat.pos_of_ne_zero hn
  set L := log (1 + e) with hLdef
  have hdt : 0 ≤ t / n := by positivity
  have he6 : exp (6 * L) = (1 + e) ^ 6 := by
    rw [show 6 * L = ((6 : ℕ) : ℝ) * L by norm_num, exp_nat_mul, exp_log (by linarith)]
  -- the two exponents
  have hm := ((((Err.rfl' (y := b) le_rfl).mono (θ' := 2 * L) (by positivity)).sub
    (((((Err.rfl' (y := σ ^ 2) (B := σ ^ 2) (abs_of_nonneg (by positivity)).le).round he
      (hA.pow σ 2)).mul (Err.rfl' (y := (1 / 2 : ℝ)) (B := 1 / 2) (by norm_num))).round he
      (z := A.div (A.pow σ 2) 2) (by
        have := hA.div (A.pow σ 2) 2
        rwa [div_eq_mul_one_div (A.pow σ 2)] at this)).mono (θ' := 2 * L)
        (by rw [← hLdef]; ring_nf; exact le_rfl))).round he (hA.sub _ _)).mul (dt_err hA he ht n)
  have hm' := (hm.round he (hA.mul _ _)).mono (θ' := 5 * L) (by rw [← hLdef]; ring_nf; exact le_rfl)
  have hs := ((Err.rfl' (y := σ) (B := σ) (abs_of_nonneg hσ).le).mul
    (sqrt_dt_err hA he he1 ht n)).round he (hA.mul _ _)
  have hs' := hs.mono (θ' := 5 * L) (by rw [← hLdef]; linarith)
  have hup := (((hm'.add hs').round he (hA.add _ _)).mono (θ' := 6 * L)
    (by rw [← hLdef]; ring_nf; exact le_rfl)).exp'.round he (z := _)
      (by rw [abs_of_pos (exp_pos _)]; exact hA.exp _)
  have hdn := (((hm'.sub hs').round he (hA.sub _ _)).mono (θ' := 6 * L)
    (by rw [← hLdef]; ring_nf; exact le_rfl)).exp'.round he (z := _)
      (by rw [abs_of_pos (exp_pos _)]; exact hA.exp _)
  have hDf := exp_dt_err hA he ht n (-r)
  rw [abs_neg] at hDf
  have e1 : (1 : ℝ) ≤ (1 + e) ^ 6 := one_le_pow₀ (by linarith)
  have e2 : (1 : ℝ) ≤ exp (2 * L) := one_le_exp (by positivity)
  have hc0 : Err 0 (1 / 2 : ℝ) (1 / 2) (1 / 2) := Err.rfl' (by norm_num)
  have hc1 : Err 0 (1 - 1 / 2 : ℝ) (1 - 1 / 2) (1 - 1 / 2) := Err.rfl' (by norm_num)
  obtain ⟨am, rfl⟩ : ∃ am, typeOf am = type := by
    rcases htype with rfl | rfl
    exacts [⟨false, rfl⟩, ⟨true, rfl⟩]
  rw [he6] at hup hdn
  have hM2 : exp (-r * (t / n)) * (1 / 2 * exp ((b - σ ^ 2 * (1 / 2)) * (t / n) + σ * √(t / n))
      + (1 - 1 / 2) * exp ((b - σ ^ 2 * (1 / 2)) * (t / n) - σ * √(t / n)))
      ≤ exp (max 0 (max (b - r) (-r)) * (t / n)) := by
    have h1 : 1 / 2 * exp ((b - σ ^ 2 * (1 / 2)) * (t / n) + σ * √(t / n))
      + (1 - 1 / 2) * exp ((b - σ ^ 2 * (1 / 2)) * (t / n) - σ * √(t / n))
      = exp ((b - σ ^ 2 * (1 / 2)) * (t / n)) * cosh (σ * √(t / n)) := by
      rw [sub_eq_add_neg ((b - σ ^ 2 * (1 / 2)) * (t / n)), exp_add, exp_add, cosh_eq]; ring
    have h2 := cosh_le_exp_half_sq (σ * √(t / n))
    rw [mul_pow, sq_sqrt hdt] at h2
    rw [h1]
    calc _ ≤ exp (-r * (t / n)) * (exp ((b - σ ^ 2 * (1 / 2)) * (t / n)) * exp (σ ^ 2 * (t / n) / 2)) := by
          gcongr
      _ = exp ((b - r) * (t / n)) := by rw [← exp_add, ← exp_add]; congr 1; ring
      _ ≤ _ := growth_le hdt ((le_max_left _ _).trans (le_max_right _ _))
  obtain ⟨v', v, h1, h2, h3⟩ := binomial_err hA he hS hK hup hdn hc0 hc1 hDf
    (by have := hup.nonneg; positivity) le_rfl (by positivity)
    (M := exp (max 0 (max (b - r) (-r)) * (t / n)))
    (one_le_exp (by positivity)) (growth_le hdt ((le_max_right _ _).trans (le_max_right _ _))) hM2
    am isCall n
  refine ⟨v', v, ?_, ?_, ?_⟩
  · simp only [TreeFl.price, if_neg hn, TreeFl.factors]
    exact h1
  · simp only [Tree.price, if_neg hn, Tree.factors]
    rw [← h2]
    congr 1 <;> ring_nf
  · refine h3.err.trans ?_
    have hpow : exp (max 0 (max (b - r) (-r)) * (t / n)) ^ n = exp (max 0 (max (b - r) (-r)) * t) := by
      rw [← exp_nat_mul]; congr 1; field_simp
    have hroot : n * √(t / n) = √(n * t) := by
      rw [show (n : ℝ) * t = n ^ 2 * (t / n) by field_simp, sqrt_mul (by positivity),
        sqrt_sq hn'.le]
    have h26 : exp (2 * L) ≤ (1 + e) ^ 6 := by
      rw [← he6]; gcongr; norm_num
    rw [hpow]
    refine mul_le_mul_of_nonneg_right (sub_le_sub_right (exp_le_exp.2 ?_) 1)
      (by positivity)
    have h4 : (exp (2 * L) - 1) * (|r| * (t / n)) ≤ ((1 + e) ^ 6 - 1) * (|r| * (t / n)) := by
      gcongr
    have h5 : (n : ℝ) * (((1 + e) ^ 6 - 1) * (|r| * (t / n))) = ((1 + e) ^ 6 - 1) * (|r| * t) := by
      field_simp
    have h6 : (n : ℝ) * (((1 + e) ^ 6 - 1) * ((|b| + σ ^ 2 * (1 / 2)) * (t / n) + σ * √(t / n)))
        = ((1 + e) ^ 6 - 1) * ((|b| + σ ^ 2 / 2) * t + σ * √(n * t)) := by
      rw [← hroot]; field_simp
    have h7 := mul_le_mul_of_nonneg_left h4 hn'.le
    nlinarith [h5, h6, h7]

/-- The up probability `(E - d) / (u - d)` from approximate `u`, `d`, `E`: cancellation multiplies the
relative error by the condition number `κ`. -/
theorem prob_err {e : ℝ} {A : Arith} (hA : Rounded e A) (he : 0 ≤ e) {η u d E u' d' E' κ ω : ℝ}
    (hu : Err η u' u u) (hd : Err η d' d d) (hE : Err η E' E E) (hη : 0 ≤ η) (hdE : d < E) (hEu : E < u)
    (hκ1 : E + d ≤ κ * (E - d)) (hκ2 : u + d ≤ κ * (u - d))
    (hω : ω = ((1 + e) * exp η - 1) * κ) (hω1 : ω < 1) :
    |A.div (A.sub E' d') (A.sub u' d') - (E - d) / (u - d)|
      ≤ ((1 + e) * (1 + ω) / (1 - ω) - 1) * ((E - d) / (u - d)) := by
  have hη1 : 1 ≤ (1 + e) * exp η := by
    have := one_le_exp hη
    nlinarith
  have hN : 0 < E - d := by linarith
  have hD : 0 < u - d := by linarith
  have hk : 0 ≤ κ := by
    by_contra hc
    push Not at hc
    have := hd.nonneg
    nlinarith
  have hω0 : 0 ≤ ω := by rw [hω]; exact mul_nonneg (by linarith) hk
  have hexp : exp (η + log (1 + e)) = (1 + e) * exp η := by
    rw [exp_add, exp_log (by linarith)]; ring
  have h1 : |A.sub E' d' - (E - d)| ≤ ω * (E - d) := by
    refine ((hE.sub hd).round he (hA.sub _ _)).err.trans ?_
    rw [hexp, hω, mul_assoc]
    exact mul_le_mul_of_nonneg_left hκ1 (by linarith)
  have h2 : |A.sub u' d' - (u - d)| ≤ ω * (u - d) := by
    refine ((hu.sub hd).round he (hA.sub _ _)).err.trans ?_
    rw [hexp, hω, mul_assoc]
    exact mul_le_mul_of_nonneg_left hκ2 (by linarith)
  have h3 := hA.div (A.sub E' d') (A.sub u' d')
  generalize A.div (A.sub E' d') (A.sub u' d') = p' at *
  generalize A.sub E' d' = N' at *
  generalize A.sub u' d' = D' at *
  generalize E - d = N at *
  generalize u - d = D at *
  obtain ⟨n1, n2⟩ := abs_le.1 h1
  obtain ⟨d1, d2⟩ := abs_le.1 h2
  have hw : 0 < 1 - ω := by linarith
  have hD' : 0 < D' := by nlinarith
  have hN' : 0 ≤ N' := by nlinarith
  have hq : 0 ≤ N' / D' := by positivity
  rw [abs_of_nonneg hq] at h3
  obtain ⟨p1, p2⟩ := abs_le.1 h3
  have hpp : 0 < N / D := by positivity
  have up : N' / D' ≤ (1 + ω) / (1 - ω) * (N / D) := by
    rw [div_mul_div_comm]
    exact div_le_div₀ (by positivity) (by linarith) (by positivity) (by linarith)
  have lo : (1 - ω) / (1 + ω) * (N / D) ≤ N' / D' := by
    rw [div_mul_div_comm]
    exact div_le_div₀ hN' (by linarith) hD' (by linarith)
  have hx : (1 + e) * ((1 + ω) / (1 - ω)) = (1 + e) * (1 + ω) / (1 - ω) := by ring
  have hinv : (1 - ω) / (1 + ω) * ((1 + ω) / (1 - ω)) = 1 := by
    field_simp
  have hX1 : 1 ≤ (1 + ω) / (1 - ω) := by rw [one_le_div hw]; linarith
  have hY0 : 0 < (1 - ω) / (1 + ω) := by positivity
  rw [← hx]
  generalize (1 + ω) / (1 - ω) = X at *
  generalize (1 - ω) / (1 + ω) = Y at *
  generalize N / D = p at *
  generalize N' / D' = q at *
  have hXY : 2 - X ≤ Y := by
    have : 0 ≤ (X - 1) ^ 2 := sq_nonneg _
    nlinarith
  rw [abs_le]
  constructor
  · rcases le_or_gt e 1 with h | h
    · have h5 : (1 - e) * (Y * p) ≤ (1 - e) * q := mul_le_mul_of_nonneg_left lo (by linarith)
      have h6 : 2 - (1 + e) * X ≤ (1 - e) * Y := by nlinarith
      nlinarith
    · have h5 : (e - 1) * q ≤ (e - 1) * (X * p) := mul_le_mul_of_nonneg_left up (by linarith)
      nlinarith
  · have h5 : (1 + e) * q ≤ (1 + e) * (X * p) := mul_le_mul_of_nonneg_left up (by linarith)
    nlinarith

/-- The reciprocal of a rounded exponential. -/
theorem inv_exp_round {e : ℝ} {A : Arith} (hA : Rounded e A) (he : 0 ≤ e) (he1 : e < 1) (x : ℝ) :
    |1 / A.exp x - exp (-x)| ≤ e / (1 - e) * |exp (-x)| := by
  have h := hA.exp x
  rw [abs_of_pos (exp_pos (-x)), exp_neg]
  have hp := exp_pos x
  generalize rexp x = X at *
  generalize A.exp x = Y at *
  obtain ⟨y1, y2⟩ := abs_le.1 h
  have hY : 0 < Y := by nlinarith
  have h1 : 0 < 1 - e := by linarith
  rw [show 1 / Y - X⁻¹ = (X - Y) / (X * Y) by field_simp, abs_div, abs_of_pos (mul_pos hp hY),
    div_le_iff₀ (by positivity), abs_sub_comm]
  have : e / (1 - e) * X⁻¹ * (X * Y) = e * (Y / (1 - e)) := by field_simp
  rw [this]
  refine h.trans (mul_le_mul_of_nonneg_left ?_ he)
  rw [le_div_iff₀ h1]; nlinarith

/-- C85: CRR trees from the parameters to the price. `κ` bounds the condition numbers of the subtractions
in the up probability, `κ'` the odds of an up move. -/
theorem C85_crr {e : ℝ} {A : Arith} (hA : Rounded e A) (he : 0 ≤ e) (he1 : e < 1) (o : Opt)
    (hS : 0 ≤ o.S) (hK : 0 ≤ o.K) (ht : 0 ≤ o.t) (hσ : 0 ≤ o.sigma) (hn : o.n ≠ 0)
    (hb : |o.b| * (o.t / o.n) < o.sigma * √(o.t / o.n))
    (htype : o.type = "european" ∨ o.type = "american") (isCall : Bool)
    {E u d η κ κ' ω ρ : ℝ} (hE : E = exp (o.b * (o.t / o.n))) (hu : u = exp (o.sigma * √(o.t / o.n)))
    (hd : d = exp (-(o.sigma * √(o.t / o.n))))
    (hη : η = ((1 + e) ^ 3 - 1) * (o.sigma * √(o.t / o.n) + (|o.b| + |o.r|) * (o.t / o.n))
      - 2 * log (1 - e))
    (hκ1 : E + d ≤ κ * (E - d)) (hκ2 : u + d ≤ κ * (u - d)) (hκ3 : E - d ≤ κ' * (u - E)) (hκ' : 1 ≤ κ')
    (hω : ω = ((1 + e) * exp η - 1) * κ) (hω1 : ω < 1)
    (hρ : ρ = (1 + e) * (1 + ω) / (1 - ω) - 1) :
    ∃ v' v, TreeFl.price A .crr o isCall = .ok v' ∧ Tree.price .crr o isCall = .ok v ∧
      |v' - v| ≤ (exp ((8 + 4 * o.n) * log (1 + e) + o.n * (2 * η + log (1 + ρ * κ'))) - 1)
        * (exp (max 0 (max (o.b - o.r) (-o.r)) * o.t) * (o.S + o.K)) := by
  obtain ⟨S, K, t, r, b, σ, type, n⟩ := o
  dsimp only at *
  have hL : 0 ≤ log (1 + e) := log_nonneg (by linarith)
  have hn' : (0 : ℝ) < n := by exact_mod_cast Nat.pos_of_ne_zero hn
  have hdt : 0 ≤ t / n := by positivity
  have hLL : log (1 + e) ≤ -log (1 - e) := by
    rw [← log_inv]
    refine log_le_log (by linarith) ?_
    rw [le_inv_comm₀ (by linarith) (by linarith), inv_eq_one_div, le_div_iff₀ (by linarith)]
    nlinarith
  have e3 : exp (3 * log (1 + e)) = (1 + e) ^ 3 := by
    rw [show 3 * log (1 + e) = ((3 : ℕ) : ℝ) * log (1 + e) by norm_num, exp_nat_mul, exp_log (by linarith)]
  have e2 : exp (2 * log (1 + e)) ≤ (1 + e) ^ 3 := by
    rw [← e3]; gcongr; norm_num
  have e30 : 0 ≤ (1 + e) ^ 3 - 1 := by
    have : (1 : ℝ) ≤ (1 + e) ^ 3 := one_le_pow₀ (by linarith)
    linarith
  have hb0 : 0 ≤ |b| * (t / n) := by positivity
  have hr0 : 0 ≤ |r| * (t / n) := by positivity
  have hs0 : 0 ≤ σ * √(t / n) := by positivity
  have hη' : η = ((1 + e) ^ 3 - 1) * (σ * √(t / n)) + ((1 + e) ^ 3 - 1) * (|b| * (t / n))
      + ((1 + e) ^ 3 - 1) * (|r| * (t / n)) - 2 * log (1 - e) := by rw [hη]; ring
  have t1 := mul_nonneg e30 hs0
  have t2 := mul_nonneg e30 hb0
  have t3 := mul_nonneg e30 hr0
  have hη0 : 0 ≤ η := by linarith
  -- the factors
  have harg := (((Err.rfl' (y := σ) (B := σ) (abs_of_nonneg hσ).le).mul
    (sqrt_dt_err hA he he1.le ht n)).round he (hA.mul _ _)).mono (θ' := 3 * log (1 + e))
    (by ring_nf; exact le_rfl)
  have hup := harg.exp'.round he (z := _) (by rw [abs_of_pos (exp_pos _)]; exact hA.exp _)
  rw [e3, ← hu] at hup
  have hup' := hup.mono (θ' := η) (by linarith)
  have hdn := harg.neg.exp'.round (div_nonneg he (by linarith))
    (inv_exp_round hA he he1 (A.mul σ (A.sqrt (A.div t n))))
  have hdn1 := hdn.round he (z := _) (hA.div 1 _)
  have hlog : log (1 + e / (1 - e)) = -log (1 - e) := by
    rw [← log_inv]; congr 1
    have : (1 - e) ≠ 0 := by linarith
    field_simp; ring
  rw [e3, hlog, ← hd] at hdn1
  have hdn' := hdn1.mono (θ' := η) (by linarith)
  have hEe := exp_dt_err hA he ht n b
  rw [← hE] at hEe
  have hE' := hEe.mono (θ' := η) (by
    have := mul_le_mul_of_nonneg_right (sub_le_sub_right e2 1) hb0
    linarith)
  have hDf := exp_dt_err hA he ht n (-r)
  have hDf' := hDf.mono (θ' := η) (by
    rw [abs_neg]
    have := mul_le_mul_of_nonneg_right (sub_le_sub_right e2 1) hr0
    linarith)
  have hbb := abs_le.1 (show |b * (t / n)| ≤ |b| * (t / n) by rw [abs_mul, abs_of_nonneg hdt])
  have hdE : d < E := by rw [hd, hE]; exact exp_lt_exp.2 (by linarith)
  have hEu : E < u := by rw [hu, hE]; exact exp_lt_exp.2 (by linarith)
  have hd0 : 0 < d := by rw [hd]; exact exp_pos _
  have hp := prob_err hA he hup' hdn' hE' hη0 hdE hEu hκ1 hκ2 hω hω1
  rw [← hρ] at hp
  have hD : 0 < u - d := by linarith
  have hp0 : 0 < (E - d) / (u - d) := div_pos (by linarith) hD
  have hq : 1 - (E - d) / (u - d) = (u - E) / (u - d) := by field_simp; ring
  have hq0 : 0 < 1 - (E - d) / (u - d) := by rw [hq]; exact div_pos (by linarith) hD
  have hρ0 : 0 ≤ ρ := nonneg_of_mul_nonneg_left ((abs_nonneg _).trans hp) hp0
  have hc1 : 1 + ρ * κ' = exp (log (1 + ρ * κ')) := (exp_log (by positivity)).symm
  have hc0 : 0 ≤ log (1 + ρ * κ') := log_nonneg (by
    have : 0 ≤ ρ * κ' := by positivity
    linarith)
  have hpe : Err (log (1 + ρ * κ')) (A.div (A.sub (A.exp (A.mul b (A.div t n)))
      (A.div 1 (A.exp (A.mul σ (A.sqrt (A.div t n)))))) (A.sub (A.exp (A.mul σ (A.sqrt (A.div t n))))
      (A.div 1 (A.exp (A.mul σ (A.sqrt (A.div t n))))))) ((E - d) / (u - d)) ((E - d) / (u - d)) := by
    refine ⟨hp.trans ?_, (abs_of_pos hp0).le⟩
    rw [← hc1, add_sub_cancel_left]
    exact mul_le_mul_of_nonneg_right (le_mul_of_one_le_right hρ0 hκ') hp0.le
  have hqe : Err (log (1 + ρ * κ')) (1 - A.div (A.sub (A.exp (A.mul b (A.div t n)))
      (A.div 1 (A.exp (A.mul σ (A.sqrt (A.div t n)))))) (A.sub (A.exp (A.mul σ (A.sqrt (A.div t n))))
      (A.div 1 (A.exp (A.mul σ (A.sqrt (A.div t n))))))) (1 - (E - d) / (u - d))
      (1 - (E - d) / (u - d)) := by
    refine ⟨?_, (abs_of_pos hq0).le⟩
    rw [← hc1, add_sub_cancel_left, sub_sub_sub_cancel_left, abs_sub_comm]
    refine hp.trans ?_
    rw [mul_assoc]
    refine mul_le_mul_of_nonneg_left ?_ hρ0
    rw [hq, ← mul_div_assoc]
    gcongr
  obtain ⟨am, rfl⟩ : ∃ am, typeOf am = type := by
    rcases htype with rfl | rfl
    exacts [⟨false, rfl⟩, ⟨true, rfl⟩]
  have hmean : (E - d) / (u - d) * u + (1 - (E - d) / (u - d)) * d = E := by
    field_simp; ring
  obtain ⟨v', v, h1, h2, h3⟩ := binomial_err hA he hS hK hup' hdn' hpe hqe hDf' hη0 hc0 hη0
    (M := exp (max 0 (max (b - r) (-r)) * (t / n)))
    (one_le_exp (by positivity)) (growth_le hdt ((le_max_right _ _).trans (le_max_right _ _)))
    (by
      rw [hmean, hE, ← exp_add, show -r * (t / n) + b * (t / n) = (b - r) * (t / n) by ring]
      exact growth_le hdt ((le_max_left _ _).trans (le_max_right _ _)))
    am isCall n
  refine ⟨v', v, ?_, ?_, ?_⟩
  · simp only [TreeFl.price, if_neg hn, TreeFl.factors]
    exact h1
  · simp only [Tree.price, if_neg hn, Tree.factors]
    rw [← h2, hE, hu, hd, exp_neg, one_div]
  · refine h3.err.trans (le_of_eq ?_)
    have hpow : exp (max 0 (max (b - r) (-r)) * (t / n)) ^ n = exp (max 0 (max (b - r) (-r)) * t) := by
      rw [← exp_nat_mul]; congr 1; field_simp
    rw [hpow]
    congr 3
    ring

/-! ### Examples -/

/-- An arithmetic whose every result is too large by the factor `1 + e`. -/
noncomputable def skew (e : ℝ) : Arith :=
  ⟨fun x y => (x + y) * (1 + e), fun x y => (x - y) * (1 + e), fun x y => x * y * (1 + e),
    fun x y => x / y * (1 + e), fun x k => x ^ k * (1 + e), fun x => √x * (1 + e),
    fun x => exp x * (1 + e)⟩

theorem skew_rounded {e : ℝ} (he : 0 ≤ e) : Rounded e (skew e) := by
  have h : ∀ x : ℝ, |x * (1 + e) - x| ≤ e * |x| := by
    intro x
    rw [show x * (1 + e) - x = e * x by ring, abs_mul, abs_of_nonneg he]
  refine ⟨fun x y => h _, fun x y => h _, fun x y => h _, fun x y => h _, fun x k => h _, fun x => ?_,
    fun x => ?_⟩
  · have := h (√x)
    rwa [abs_of_nonneg (sqrt_nonneg x)] at this
  · have := h (exp x)
    rwa [abs_of_pos (exp_pos x)] at this

theorem exp_sub_one_le {x : ℝ} (h1 : x ≤ 1 / 2) : exp x - 1 ≤ 2 * |x| := by
  rcases le_or_gt x 0 with h | h
  · have := exp_le_one_iff.2 h
    have := abs_nonneg x
    linarith
  · have h2 := one_sub_le_exp_neg x
    have h3 : exp x * exp (-x) = 1 := by rw [← exp_add]; simp
    have h4 := exp_pos x
    rw [abs_of_pos h]
    nlinarith

/-- C85, example: in double precision (relative errors up to `2⁻⁵²`) an American JR option with 100
steps is computed to nine decimals; the hypotheses are met by an arithmetic that is not exact. -/
theorem C85_jr_example (A : Arith) (hA : Rounded (2⁻¹ ^ 52) A) :
    (∃ v' v, TreeFl.price A .jr ⟨100, 100, 1, 0.05, 0.05, 0.2, "american", 100⟩ false = .ok v' ∧
      Tree.price .jr ⟨100, 100, 1, 0.05, 0.05, 0.2, "american", 100⟩ false = .ok v ∧
      |v' - v| ≤ 0.000000001) ∧
    Rounded (2⁻¹ ^ 52) (skew (2⁻¹ ^ 52)) ∧ (skew (2⁻¹ ^ 52)).add 1 1 ≠ 2 := by
  refine ⟨?_, skew_rounded (by positivity), ?_⟩
  · obtain ⟨v', v, h1, h2, h3⟩ := C85_jr hA (by positivity) (by norm_num)
      ⟨100, 100, 1, 0.05, 0.05, 0.2, "american", 100⟩ (by norm_num) (by norm_num) (by norm_num)
      (by norm_num) (by norm_num) (Or.inr rfl) false
    refine ⟨v', v, h1, h2, h3.trans ?_⟩
    have hs : √((100 : ℕ) * (1 : ℝ)) = 10 := by
      rw [show ((100 : ℕ) : ℝ) * 1 = 10 ^ 2 by norm_num]; exact sqrt_sq (by norm_num)
    dsimp only
    rw [hs]
    have hl : log (1 + 2⁻¹ ^ 52) ≤ 2⁻¹ ^ 52 := by
      have := log_le_sub_one_of_pos (show (0 : ℝ) < 1 + 2⁻¹ ^ 52 by positivity)
      linarith
    have hl0 : 0 ≤ log (1 + 2⁻¹ ^ 52) := log_nonneg (by norm_num)
    have hmax : max (0 : ℝ) (max (0.05 - 0.05) (-0.05)) = 0 := by norm_num
    rw [hmax, zero_mul, exp_zero]
    have habs : |(0.05 : ℝ)| = 0.05 := abs_of_pos (by norm_num)
    rw [habs]
    generalize log (1 + 2⁻¹ ^ 52) = l at *
    have hX : (8 + 6 * ((100 : ℕ) : ℝ)) * l + ((1 + 2⁻¹ ^ 52) ^ 6 - 1) *
        ((0.05 + 0.2 ^ 2 / 2 + 0.05) * 1 + 0.2 * 10) ≤ 2 * 10⁻¹ ^ 13 := by
      have : (1 + (2⁻¹ : ℝ) ^ 52) ^ 6 - 1 ≤ 7 * 2⁻¹ ^ 52 := by norm_num
      push_cast
      nlinarith
    have hX0 : 0 ≤ (8 + 6 * ((100 : ℕ) : ℝ)) * l + ((1 + 2⁻¹ ^ 52) ^ 6 - 1) *
        ((0.05 + 0.2 ^ 2 / 2 + 0.05) * 1 + 0.2 * 10) := by
      have : 0 ≤ (1 + (2⁻¹ : ℝ) ^ 52) ^ 6 - 1 := by norm_num
      positivity
    have h5 := exp_sub_one_le (hX.trans (by norm_num))
    rw [abs_of_nonneg hX0] at h5
    generalize rexp _ - 1 = Z at *
    nlinarith
  · simp only [skew]; norm_num

/-- C85, example: a European CRR option with 100 steps, computed to seven decimals. -/
theorem C85_crr_example (A : Arith) (hA : Rounded (2⁻¹ ^ 52) A) :
    ∃ v' v, TreeFl.price A .crr ⟨100, 100, 1, 0, 0, 0.2, "european", 100⟩ true = .ok v' ∧
      Tree.price .crr ⟨100, 100, 1, 0, 0, 0.2, "european", 100⟩ true = .ok v ∧
      |v' - v| ≤ 0.00000002 := by
  have hsq : √((1 : ℝ) / (100 : ℕ)) = 0.1 := by
    rw [show (1 : ℝ) / (100 : ℕ) = 0.1 ^ 2 by norm_num]; exact sqrt_sq (by norm_num)
  have hu1 : 1.02 ≤ exp (0.02 : ℝ) := by have := add_one_le_exp (0.02 : ℝ); linarith
  have hu2 : exp (0.02 : ℝ) ≤ 1.04 := by
    have := exp_sub_one_le (x := 0.02) (by norm_num)
    rw [abs_of_pos (by norm_num)] at this
    linarith
  have hud : exp (0.02 : ℝ) * exp (-(0.02 : ℝ)) = 1 := by rw [← exp_add]; simp
  have hd0 := exp_pos (-(0.02 : ℝ))
  have hl1 : log (1 - (2⁻¹ : ℝ) ^ 52) ≤ 0 := log_nonpos (by norm_num) (by norm_num)
  have hl2 : -(1.01 * (2⁻¹ : ℝ) ^ 52) ≤ log (1 - (2⁻¹ : ℝ) ^ 52) := by
    have h := one_sub_inv_le_log_of_pos (show (0 : ℝ) < 1 - 2⁻¹ ^ 52 by norm_num)
    refine le_trans ?_ h
    norm_num
  obtain ⟨η, hη⟩ : ∃ η : ℝ, η = ((1 + 2⁻¹ ^ 52) ^ 3 - 1) * (0.02 : ℝ) - 2 * log (1 - 2⁻¹ ^ 52) := ⟨_, rfl⟩
  have hη0 : 0 ≤ η := by
    rw [hη]
    have : 0 ≤ (1 + (2⁻¹ : ℝ) ^ 52) ^ 3 - 1 := by norm_num
    linarith
  have hη1 : η ≤ 2.1 * 2⁻¹ ^ 52 := by
    have : (1 + (2⁻¹ : ℝ) ^ 52) ^ 3 - 1 ≤ 3.1 * 2⁻¹ ^ 52 := by norm_num
    rw [hη]; linarith
  have hexp := exp_sub_one_le (x := η) (by norm_num at hη1 ⊢; linarith)
  rw [abs_of_nonneg hη0] at hexp
  have hexp1 := one_le_exp hη0
  obtain ⟨ω, hω⟩ : ∃ ω : ℝ, ω = ((1 + 2⁻¹ ^ 52) * exp η - 1) * 120 := ⟨_, rfl⟩
  have hω0 : 0 ≤ ω := by rw [hω]; nlinarith [show (0 : ℝ) ≤ 2⁻¹ ^ 52 by positivity]
  have hω1 : ω ≤ 700 * 2⁻¹ ^ 52 := by
    rw [hω]
    have : exp η ≤ 1 + 4.2 * 2⁻¹ ^ 52 := by linarith
    have : (1 + (2⁻¹ : ℝ) ^ 52) * exp η ≤ (1 + 2⁻¹ ^ 52) * (1 + 4.2 * 2⁻¹ ^ 52) := by gcongr
    norm_num at this ⊢
    linarith
  have hw : (0 : ℝ) < 1 - ω := by norm_num at hω1; linarith
  obtain ⟨ρ, hρ⟩ : ∃ ρ : ℝ, ρ = (1 + 2⁻¹ ^ 52) * (1 + ω) / (1 - ω) - 1 := ⟨_, rfl⟩
  have hρ1 : ρ ≤ 1500 * 2⁻¹ ^ 52 := by
    rw [hρ, sub_le_iff_le_add, div_le_iff₀ hw]
    norm_num at hω1 ⊢
    nlinarith
  have hρ0 : 0 ≤ ρ := by
    rw [hρ, sub_nonneg, le_div_iff₀ hw]
    nlinarith [show (0 : ℝ) ≤ 2⁻¹ ^ 52 by positivity]
  obtain ⟨v', v, h1, h2, h3⟩ := C85_crr hA (by positivity) (by norm_num)
    ⟨100, 100, 1, 0, 0, 0.2, "european", 100⟩ (by norm_num) (by norm_num) (by norm_num)
    (by norm_num) (by norm_num) (by dsimp only; rw [hsq]; norm_num) (Or.inl rfl) true
    (E := 1) (u := exp 0.02) (d := exp (-0.02)) (η := η) (κ := 120) (κ' := 1) (ω := ω) (ρ := ρ)
    (by simp) (by dsimp only; rw [hsq]; norm_num) (by dsimp only; rw [hsq]; norm_num)
    (by dsimp only; rw [hsq, hη]; norm_num) (by nlinarith) (by nlinarith) (by nlinarith) le_rfl
    hω (by linarith) hρ
  refine ⟨v', v, h1, h2, h3.trans ?_⟩
  dsimp only
  have hmax : max (0 : ℝ) (max (0 - 0) (-0)) = 0 := by norm_num
  rw [hmax, zero_mul, exp_zero, mul_one]
  have hl : log (1 + 2⁻¹ ^ 52) ≤ 2⁻¹ ^ 52 := by
    have := log_le_sub_one_of_pos (show (0 : ℝ) < 1 + 2⁻¹ ^ 52 by positivity)
    linarith
  have hl0 : 0 ≤ log (1 + 2⁻¹ ^ 52) := log_nonneg (by norm_num)
  have hr : log (1 + ρ) ≤ ρ := by
    have := log_le_sub_one_of_pos (show (0 : ℝ) < 1 + ρ by positivity)
    linarith
  have hr0 : 0 ≤ log (1 + ρ) := log_nonneg (by linarith)
  generalize log (1 + 2⁻¹ ^ 52) = l at *
  generalize log (1 + ρ) = m at *
  have hX : (8 + 4 * ((100 : ℕ) : ℝ)) * l + ((100 : ℕ) : ℝ) * (2 * η + m) ≤ 2 * 10⁻¹ ^ 11 * 2 := by
    push_cast
    norm_num at *
    linarith
  have h5 := exp_sub_one_le (hX.trans (by norm_num))
  rw [abs_of_nonneg (by positivity)] at h5
  generalize rexp _ - 1 = Z at *
  norm_num at *
  linarith

end Verif.Props
