import Verif.Props.TreeRounding
import Verif.Props.Tree

/-!
# C85 for TIAN and trinomial trees, from the parameters to the price

`Err θ x y y` is a relative error of `exp θ - 1`. Subtractions of nearly equal numbers multiply relative errors by their
condition number `(x + y)/(x - y)`; every such condition number of the code is a parameter of the bounds.
-/

namespace Verif.Props
open Verif Verif.Spec Real Py _root_.Verif.Tree

section relative
variable {e : ℝ} {A : Arith} (hA : Rounded e A) (he : 0 ≤ e)
include hA he

theorem rel_mul {θ θ' x x' y y' : ℝ} (h : Err θ x' x x) (h' : Err θ' y' y y) :
    Err (θ + θ' + log (1 + e)) (A.mul x' y') (x * y) (x * y) :=
  (h.mul h').round he (hA.mul _ _)

theorem rel_add {θ x x' y y' : ℝ} (h : Err θ x' x x) (h' : Err θ y' y y) :
    Err (θ + log (1 + e)) (A.add x' y') (x + y) (x + y) :=
  (h.add h').round he (hA.add _ _)

/-- A subtraction with condition number `κ`. -/
theorem rel_sub {θ x x' y y' κ B B' : ℝ} (h : Err θ x' x B) (h' : Err θ y' y B') (hθ : 0 ≤ θ) (hxy : y ≤ x)
    (hκ : B + B' ≤ κ * (x - y)) :
    Err (log (1 + (exp (θ + log (1 + e)) - 1) * κ)) (A.sub x' y') (x - y) (x - y) := by
  have hL : 0 ≤ log (1 + e) := log_nonneg (by linarith)
  have h1 : 1 ≤ exp (θ + log (1 + e)) := one_le_exp (by positivity)
  have h0 : 0 ≤ κ * (x - y) := (add_nonneg h.nonneg h'.nonneg).trans hκ
  have hr := ((h.sub h').round he (hA.sub _ _)).err
  refine ⟨?_, (abs_of_nonneg (by linarith)).le⟩
  rcases hxy.eq_or_lt with rfl | hlt
  · have : B + B' ≤ 0 := by simpa using hκ
    have : B + B' = 0 := le_antisymm this (add_nonneg h.nonneg h'.nonneg)
    rw [this, mul_zero] at hr
    simpa using hr
  · have hk : 0 ≤ κ := nonneg_of_mul_nonneg_left h0 (by linarith)
    rw [exp_log (by have := mul_nonneg (sub_nonneg.2 h1) hk; linarith), add_sub_cancel_left, mul_assoc]
    exact hr.trans (mul_le_mul_of_nonneg_left hκ (by linarith))

omit hA he in
theorem rel_inv {θ y y' : ℝ} (h : Err θ y' y y) (hy : 0 < y) (hθ : exp θ < 2) :
    0 < y' ∧ Err (-log (2 - exp θ)) y'⁻¹ y⁻¹ y⁻¹ := by
  obtain ⟨h1, h2⟩ := abs_le.1 h.err
  have hw : 0 < 2 - exp θ := by linarith
  have hlow : (2 - exp θ) * y ≤ y' := by linarith
  have hy' : 0 < y' := (mul_pos hw hy).trans_le hlow
  refine ⟨hy', ?_, (abs_of_pos (inv_pos.2 hy)).le⟩
  rw [← log_inv, exp_log (inv_pos.2 hw),
    show y'⁻¹ - y⁻¹ = -(y' - y) / (y' * y) by field_simp; ring, abs_div, abs_neg, abs_of_pos (mul_pos hy' hy), div_le_iff₀ (mul_pos hy' hy)]
  have h3 : ((2 - exp θ)⁻¹ - 1) * y⁻¹ * (y' * y) = (exp θ - 1) * (y' / (2 - exp θ)) := by
    field_simp; ring
  rw [h3]
  have h4 : 0 ≤ exp θ - 1 := by
    by_contra hc
    have := (abs_nonneg _).trans h.err
    nlinarith
  refine h.err.trans (mul_le_mul_of_nonneg_left ?_ h4)
  rw [le_div_iff₀ hw]; linarith

theorem rel_div {θ θ' x x' y y' : ℝ} (h : Err θ x' x x) (h' : Err θ' y' y y) (hy : 0 < y) (hθ : exp θ' < 2) :
    Err (θ + -log (2 - exp θ') + log (1 + e)) (A.div x' y') (x / y) (x / y) := by
  have := (h.mul (rel_inv h' hy hθ).2).round he (z := A.div x' y') (by
    rw [← div_eq_mul_inv]; exact hA.div _ _)
  rwa [← div_eq_mul_inv] at this

/-- Dividing by two. -/
theorem rel_half {θ x x' B : ℝ} (h : Err θ x' x B) : Err (θ + log (1 + e)) (A.div x' 2) (x / 2) (B / 2) := by
  have h2 : Err 0 (2⁻¹ : ℝ) 2⁻¹ 2⁻¹ := Err.rfl' (by norm_num)
  have := (h.mul h2).round he (z := A.div x' 2) (by rw [← div_eq_mul_inv]; exact hA.div _ _)
  rwa [add_zero, ← div_eq_mul_inv, ← div_eq_mul_inv] at this

theorem rel_sqrt {θ x x' : ℝ} (h : Err θ x' x x) (hθ : exp θ ≤ 2) :
    Err (θ + log (1 + e)) (A.sqrt x') (√x) (√x) := by
  have h1 : Err θ (√x') (√x) (√x) :=
    ⟨sqrt_relative (by linarith) h.nonneg h.err, (abs_of_nonneg (sqrt_nonneg _)).le⟩
  exact h1.round he (by rw [abs_of_nonneg (sqrt_nonneg x')]; exact hA.sqrt _)

theorem rel_exp {θ x x' B : ℝ} (h : Err θ x' x B) :
    Err ((exp θ - 1) * B + log (1 + e)) (A.exp x') (exp x) (exp x) :=
  h.exp'.round he (by rw [abs_of_pos (exp_pos _)]; exact hA.exp _)

end relative

theorem exp_nat_log {e : ℝ} (he : 0 ≤ e) (k : ℕ) : exp (k * log (1 + e)) = (1 + e) ^ k := by
  rw [exp_nat_mul, exp_log (by linarith)]

/-- The quotient of two differences: all of `x - y`, `u - d` have condition number at most `κ`. -/
theorem quot_err {e : ℝ} {A : Arith} (hA : Rounded e A) (he : 0 ≤ e) {η x y u d x' y' u' d' κ ω : ℝ}
    (hx : Err η x' x x) (hy : Err η y' y y) (hu : Err η u' u u) (hd : Err η d' d d) (hη : 0 ≤ η)
    (hyx : y ≤ x) (hdu : d < u) (hκ1 : x + y ≤ κ * (x - y)) (hκ2 : u + d ≤ κ * (u - d))
    (hω : ω = log (1 + (exp (η + log (1 + e)) - 1) * κ)) (hω1 : exp ω < 2) :
    Err (ω + -log (2 - exp ω) + log (1 + e)) (A.div (A.sub x' y') (A.sub u' d')) ((x - y) / (u - d))
      ((x - y) / (u - d)) := by
  subst hω
  exact rel_div hA he (rel_sub hA he hx hy hη hyx hκ1) (rel_sub hA he hu hd hη hdu.le hκ2) (by linarith) hω1

/-- `ω - log(2 - exp ω) ≥ 0` for the level of a quotient. -/
theorem level_nonneg {ω : ℝ} (h0 : 0 ≤ ω) (h1 : exp ω < 2) : 0 ≤ ω + -log (2 - exp ω) := by
  have := log_nonpos (x := 2 - exp ω) (by linarith) (by linarith [one_le_exp h0])
  linarith

theorem cond_level {θ κ : ℝ} (hθ : 0 ≤ θ) (hκ : 1 ≤ κ) : θ ≤ log (1 + (exp θ - 1) * κ) := by
  have h1 := one_le_exp hθ
  rw [le_log_iff_exp_le (by nlinarith)]
  nlinarith

/-! ### Trinomial trees -/

theorem roll3_exact (S K u d pu pd pm Df z : ℝ) (n : ℕ) (type : String) :
    TreeFl.roll3 Arith.exact S K u d pu pd pm Df z n type = (Prod.fst <$> Tree.roll3 S K u d pu pd pm Df z n type) := by
  symm
  unfold Tree.roll3 TreeFl.roll3
  refine foldlM_fst _ _ (fun st j => ?_) _ _
  refine foldlM_fst _ _ (fun st i => ?_) _ _
  unfold TreeFl.cell3 Tree.euro3 Tree.amer3
  split_ifs
  · simp only [bind_assoc, pure_bind]
    exact bind_fst _ _ _ fun h2 => bind_fst _ _ _ fun h1 => bind_fst _ _ _ fun h0 => setI_getI _ _ _ _
  · simp only [bind_assoc, pure_bind]
    exact bind_fst _ _ _ fun h2 => bind_fst _ _ _ fun h1 => bind_fst _ _ _ fun h0 => setI_getI _ _ _ _
  · simp only [pure_bind]
    by_cases h : i < st.1.length
    · rw [getI_ok (x := st.1[i]) (by simp [h])]
      change _ = setI st.1 i st.1[i]
      rw [setI_ok h, List.set_getElem_self]
      rfl
    · simp [getI, h]
      rfl

/-- C85: with exact arithmetic the rounded trinomial pricer is the pricer of the other properties. -/
theorem C85_exact_trinomial (o : Opt) (isCall : Bool) : TreeFl.price3 Arith.exact o isCall = Tree.price3 o isCall := by
  unfold TreeFl.price3 Tree.price3
  split_ifs
  · rfl
  · dsimp only
    unfold TreeFl.calcPrice3 Tree.calcPrice3
    rw [roll3_exact]
    have : TreeFl.factors3 Arith.exact o = Tree.factors3 o := rfl
    rw [this]
    cases Tree.roll3 o.S o.K (Tree.factors3 o).u (Tree.factors3 o).d (Tree.factors3 o).pu (Tree.factors3 o).pd
      (Tree.factors3 o).pm (Tree.factors3 o).Df (zOf isCall) o.n o.type <;> rfl

/-- C85: trinomial trees from the parameters to the price. `x`, `y`, `m` are the half-step factors in the weights; `κ` bounds
the condition numbers of the subtractions there, `κ'` that of `1 - pu - pd`. -/
theorem C85_trinomial_params {e : ℝ} {A : Arith} (hA : Rounded e A) (he : 0 ≤ e) (he1 : (1 + e) ^ 2 ≤ 2) (o : Opt)
    (hS : 0 ≤ o.S) (hK : 0 ≤ o.K) (h : TreeValid o) (hb : |o.b| * √(o.t / o.n / 2) < o.sigma)
    (htype : o.type = "european" ∨ o.type = "american") (isCall : Bool)
    {x y m η κ κ' ω θ c : ℝ} (hx : x = exp (-o.sigma * √(o.t / o.n / 2))) (hy : y = exp (o.sigma * √(o.t / o.n / 2)))
    (hm : m = exp (o.b * (o.t / o.n) / 2))
    (hη : η = ((1 + e) ^ 4 - 1) * (o.sigma * √(2 * (o.t / o.n)) + (|o.b| + |o.r|) * (o.t / o.n)) + log (1 + e))
    (hκ1 : m + x ≤ κ * (m - x)) (hκ2 : y + m ≤ κ * (y - m)) (hκ3 : y + x ≤ κ * (y - x))
    (hω : ω = log (1 + (exp (η + log (1 + e)) - 1) * κ)) (hω1 : exp ω < 2)
    (hθ : θ = ω - log (2 - exp ω) + log (1 + e))
    (hκ' : 1 + ((m - x) / (y - x)) ^ 2 + ((y - m) / (y - x)) ^ 2
      ≤ κ' * (1 - ((m - x) / (y - x)) ^ 2 - ((y - m) / (y - x)) ^ 2))
    (hc : c = log (1 + (exp (2 * θ + 3 * log (1 + e)) - 1) * κ')) :
    ∃ v' v, TreeFl.price3 A o isCall = .ok v' ∧ Tree.price3 o isCall = .ok v ∧
      |v' - v| ≤ (exp ((6 + 4 * o.n) * log (1 + e) + o.n * (2 * η + c)) - 1)
        * (exp (max 0 (max (o.b - o.r) (-o.r)) * o.t) * (o.S + o.K)) := by
  obtain ⟨hf1, hf2, hf3, hf4, hf5, hf6⟩ := factors3_eq h
  have hsum := (C24_trinomial o h).2.2.1
  obtain ⟨S, K, t, r, b, σ, type, n⟩ := o
  have ht := h.t
  have hσ := h.sigma
  have hn := h.n
  have hn0 := h.ne
  dsimp only at *
  set L := log (1 + e) with hLdef
  have hL : 0 ≤ L := log_nonneg (by linarith)
  have hn' : (0 : ℝ) < n := by exact_mod_cast hn
  have hdt : 0 < t / n := by positivity
  have e4 : exp (4 * L) = (1 + e) ^ 4 := by exact_mod_cast exp_nat_log he 4
  have e2 : exp (2 * L) = (1 + e) ^ 2 := by exact_mod_cast exp_nat_log he 2
  have e40 : 0 ≤ (1 + e) ^ 4 - 1 := by
    have : (1 : ℝ) ≤ (1 + e) ^ 4 := one_le_pow₀ (by linarith)
    linarith
  have hle4 : ∀ {k : ℝ}, k ≤ 4 → exp (k * L) - 1 ≤ (1 + e) ^ 4 - 1 := by
    intro k hk
    rw [← e4]
    have : k * L ≤ 4 * L := mul_le_mul_of_nonneg_right hk hL
    linarith [exp_le_exp.2 this]
  have hs2 : √(t / n / 2) ≤ √(2 * (t / n)) := sqrt_le_sqrt (by linarith)
  have p1 : 0 ≤ σ * √(2 * (t / n)) := by positivity
  have p2 : 0 ≤ |b| * (t / n) := by positivity
  have p3 : 0 ≤ |r| * (t / n) := by positivity
  have q1 := mul_nonneg e40 p1
  have q2 := mul_nonneg e40 p2
  have q3 := mul_nonneg e40 p3
  have hη' : η = ((1 + e) ^ 4 - 1) * (σ * √(2 * (t / n))) + ((1 + e) ^ 4 - 1) * (|b| * (t / n))
      + ((1 + e) ^ 4 - 1) * (|r| * (t / n)) + L := by rw [hη]; ring
  have hη0 : 0 ≤ η := by linarith
  -- the factors
  have hDT := dt_err hA he ht.le n
  rw [← hLdef] at hDT
  have hσe : Err 0 σ σ σ := Err.rfl' (abs_of_pos hσ).le
  have hσn : Err 0 (-σ) (-σ) σ := Err.rfl' (by rw [abs_neg, abs_of_pos hσ])
  have hhalf := rel_sqrt hA he (rel_half hA he hDT) (by rw [← hLdef, show L + L = 2 * L by ring, e2]; exact he1)
  have h22 : Err 0 (2 : ℝ) 2 2 := Err.rfl' (by norm_num)
  have hdouble := rel_sqrt hA he (rel_mul hA he h22 hDT) (by rw [← hLdef, show 0 + L + L = 2 * L by ring, e2]; exact he1)
  rw [← hLdef] at hhalf hdouble
  have mk : ∀ {s s' σ' : ℝ}, Err 0 σ' σ' σ → Err (3 * L) s' s s → s ≤ √(2 * (t / n)) →
      Err η (A.exp (A.mul σ' s')) (exp (σ' * s)) (exp (σ' * s)) := by
    intro s s' σ' hσ' hs hle
    have h1 := ((hσ'.mul hs).round he (hA.mul _ _)).mono (θ' := 4 * L) (by rw [← hLdef]; linarith)
    refine (rel_exp hA he h1).mono ?_
    rw [← hLdef, e4]
    have := mul_le_mul_of_nonneg_left (mul_le_mul_of_nonneg_left hle hσ.le) e40
    linarith
  have hup := mk hσe (hdouble.mono (by linarith)) le_rfl
  have hdn := mk hσn (hdouble.mono (by linarith)) le_rfl
  have hye := mk hσe (hhalf.mono (by linarith)) hs2
  have hxe := mk hσn (hhalf.mono (by linarith)) hs2
  have hbe : Err 0 b b |b| := Err.rfl' le_rfl
  have hme : Err η (A.exp (A.div (A.mul b (A.div t n)) 2)) (exp (b * (t / n) / 2)) (exp (b * (t / n) / 2)) := by
    have h1 := (rel_half hA he ((hbe.mul hDT).round he (hA.mul _ _))).mono (θ' := 4 * L) (by rw [← hLdef]; linarith)
    refine (rel_exp hA he h1).mono ?_
    rw [← hLdef, e4]
    have : ((1 + e) ^ 4 - 1) * (|b| * (t / n) / 2) ≤ ((1 + e) ^ 4 - 1) * (|b| * (t / n)) :=
      mul_le_mul_of_nonneg_left (by linarith) e40
    linarith
  have hDf := (exp_dt_err hA he ht.le n (-r)).mono (θ' := η) (by
    rw [abs_neg, ← hLdef]
    have := mul_le_mul_of_nonneg_right (hle4 (k := 2) (by norm_num)) p3
    linarith)
  rw [← hx] at hxe
  rw [← hy] at hye
  rw [← hm] at hme
  have hsq : √(t / n / 2) * √(t / n / 2) = t / n / 2 := mul_self_sqrt (by linarith)
  have hsp : 0 < √(t / n / 2) := sqrt_pos.2 (by linarith)
  have hbb : |b * (t / n) / 2| < σ * √(t / n / 2) := by
    have := mul_lt_mul_of_pos_right hb hsp
    rw [mul_assoc, hsq] at this
    rw [abs_div, abs_mul, abs_of_pos hdt, abs_of_pos (by norm_num : (0 : ℝ) < 2)]
    linarith
  obtain ⟨k1, k2⟩ := abs_lt.1 hbb
  have hxm : x < m := by rw [hx, hm]; exact exp_lt_exp.2 (by linarith)
  have hmy : m < y := by rw [hy, hm]; exact exp_lt_exp.2 (by linarith)
  have hx0 : 0 < x := by rw [hx]; exact exp_pos _
  have hκ0 : 1 ≤ κ := by
    by_contra hlt
    push Not at hlt
    have := mul_lt_mul_of_pos_right hlt (show 0 < y - x by linarith)
    linarith
  have hω0 : 0 ≤ ω := by
    have := cond_level (θ := η + L) (κ := κ) (by positivity) hκ0
    rw [hω]; linarith
  have hqu := quot_err hA he hme hxe hye hxe hη0 hxm.le (hxm.trans hmy) hκ1 hκ3 hω hω1
  have hqd := quot_err hA he hye hme hye hxe hη0 hmy.le (hxm.trans hmy) hκ2 hκ3 hω hω1
  rw [← hLdef, show ω + -log (2 - exp ω) + L = θ by rw [hθ]; ring] at hqu hqd
  have hθ0 : 0 ≤ θ := by
    have := level_nonneg hω0 hω1
    rw [hθ]; linarith
  have hpu := (hqu.pow 2).round he (hA.pow _ _)
  have hpd := (hqd.pow 2).round he (hA.pow _ _)
  rw [← hLdef, Nat.cast_ofNat] at hpu hpd
  have hyx : 0 < y - x := by linarith
  have hpm1 : 0 < 1 - ((m - x) / (y - x)) ^ 2 - ((y - m) / (y - x)) ^ 2 := by
    have a1 : 0 < (m - x) / (y - x) := div_pos (by linarith) hyx
    have a2 : 0 < (y - m) / (y - x) := div_pos (by linarith) hyx
    have a3 : (m - x) / (y - x) + (y - m) / (y - x) = 1 := by field_simp; ring
    have a4 := mul_pos a1 a2
    have a5 : ((m - x) / (y - x) + (y - m) / (y - x)) ^ 2 = 1 := by rw [a3]; norm_num
    linarith [a5, add_sq ((m - x) / (y - x)) ((y - m) / (y - x))]
  have h11 : Err (2 * θ + L) (1 : ℝ) 1 1 := (Err.rfl' (by norm_num)).mono (by positivity)
  have hs1 := (h11.sub hpu).round he (hA.sub _ _)
  rw [← hLdef] at hs1
  have hpm := rel_sub hA he hs1 (hpd.mono (θ' := 2 * θ + L + L) (by linarith)) (by positivity)
    (by linarith) hκ'
  rw [← hLdef, show 2 * θ + L + L + L = 2 * θ + 3 * L by ring, ← hc] at hpm
  have hκ'1 : 1 ≤ κ' := by
    by_contra hlt
    push Not at hlt
    have a1 : 0 ≤ ((m - x) / (y - x)) ^ 2 := sq_nonneg _
    have a2 : 0 ≤ ((y - m) / (y - x)) ^ 2 := sq_nonneg _
    have := mul_lt_mul_of_pos_right hlt hpm1
    linarith
  have hc0 : 2 * θ + 3 * L ≤ c := by
    rw [hc]; exact cond_level (by positivity) hκ'1
  have hpu' := hpu.mono (θ' := c) (by linarith)
  have hpd' := hpd.mono (θ' := c) (by linarith)
  obtain ⟨am, rfl⟩ : ∃ am, typeOf am = type := by
    rcases htype with rfl | rfl
    exacts [⟨false, rfl⟩, ⟨true, rfl⟩]
  have fpu : (factors3 ⟨S, K, t, r, b, σ, typeOf am, n⟩).pu = ((m - x) / (y - x)) ^ 2 := by
    rw [hx, hy, hm]; rfl
  have fpd : (factors3 ⟨S, K, t, r, b, σ, typeOf am, n⟩).pd = ((y - m) / (y - x)) ^ 2 := by
    rw [hx, hy, hm]; rfl
  have fpm : (factors3 ⟨S, K, t, r, b, σ, typeOf am, n⟩).pm = 1 - ((m - x) / (y - x)) ^ 2 - ((y - m) / (y - x)) ^ 2 := by
    rw [← fpu, ← fpd]; rfl
  have hud : exp (σ * √(2 * (t / n))) * exp (-σ * √(2 * (t / n))) = 1 := by
    rw [← exp_add]; simp
  have hmean : ((m - x) / (y - x)) ^ 2 * exp (σ * √(2 * (t / n)))
      + (1 - ((m - x) / (y - x)) ^ 2 - ((y - m) / (y - x)) ^ 2) + ((y - m) / (y - x)) ^ 2 * exp (-σ * √(2 * (t / n)))
      = exp (b * (t / n)) := by
    have hsq2 : √(2 * (t / n)) = 2 * √(t / n / 2) := by
      rw [show 2 * (t / n) = 2 ^ 2 * (t / n / 2) by ring, sqrt_mul (by norm_num), sqrt_sq (by norm_num)]
    have u1 : exp (σ * √(2 * (t / n))) = y ^ 2 := by
      rw [hy, hsq2, ← exp_nat_mul]; congr 1; push_cast; ring
    have u2 : exp (-σ * √(2 * (t / n))) = x ^ 2 := by
      rw [hx, hsq2, ← exp_nat_mul]; congr 1; push_cast; ring
    have u3 : exp (b * (t / n)) = m ^ 2 := by
      rw [hm, ← exp_nat_mul]; congr 1; push_cast; ring
    have u4 : x * y = 1 := by rw [hx, hy, ← exp_add]; simp
    rw [u1, u2, u3]
    have : 1 - ((m - x) / (y - x)) ^ 2 - ((y - m) / (y - x)) ^ 2 = 2 * ((m - x) / (y - x)) * ((y - m) / (y - x)) * (x * y) := by
      rw [u4]; field_simp; ring
    rw [this]
    field_simp
    ring
  obtain ⟨v', v, h1, h2, h3⟩ := trinomial_err hA he hS hK hud hup hdn hpu' hpm hpd' hDf hη0 (by linarith [mul_nonneg zero_le_two hθ0]) hη0
    (M := exp (max 0 (max (b - r) (-r)) * (t / n)))
    (one_le_exp (by positivity))
    (by
      rw [show ((m - x) / (y - x)) ^ 2 + (1 - ((m - x) / (y - x)) ^ 2 - ((y - m) / (y - x)) ^ 2) + ((y - m) / (y - x)) ^ 2 = 1 by ring,
        mul_one]
      exact growth_le hdt.le ((le_max_right _ _).trans (le_max_right _ _)))
    (by
      rw [hmean, ← exp_add, show -r * (t / n) + b * (t / n) = (b - r) * (t / n) by ring]
      exact growth_le hdt.le ((le_max_left _ _).trans (le_max_right _ _)))
    am isCall n
  refine ⟨v', v, ?_, ?_, ?_⟩
  · simp only [TreeFl.price3, if_neg hn0, TreeFl.factors3]
    exact h1
  · simp only [Tree.price3, if_neg hn0, fpu, fpd, fpm]
    exact h2
  · refine h3.err.trans (le_of_eq ?_)
    have hpow : exp (max 0 (max (b - r) (-r)) * (t / n)) ^ n = exp (max 0 (max (b - r) (-r)) * t) := by
      rw [← exp_nat_mul]; congr 1; field_simp
    rw [hpow]
    congr 3
    ring

/-! ### TIAN trees -/

/-- The factors of the TIAN tree from approximate `M` and `V`. -/
theorem tian_err {e : ℝ} {A : Arith} (hA : Rounded e A) (he : 0 ≤ e)
    {M V M' V' w u d η κ₁ κ₂ κ₃ κ₄ ω₁ ω₂ ζ ω₃ π' c : ℝ} (hMe : Err η M' M M) (hVe : Err η V' V V) (hη0 : 0 ≤ η)
    (hM0 : 0 < M) (hV1 : 1 < V)
    (hw : w = √(V * V + 2 * V - 3)) (hu : u = M * V / 2 * (V + 1 + w)) (hd : d = M * V / 2 * (V + 1 - w))
    (hκ1 : V * V + 2 * V + 3 ≤ κ₁ * (V * V + 2 * V - 3)) (hκ2 : V + 1 + w ≤ κ₂ * (V + 1 - w))
    (hκ3 : M + d ≤ κ₃ * (M - d)) (hκ3' : u + d ≤ κ₃ * (u - d)) (hκ4 : M - d ≤ κ₄ * (u - M)) (hκ4' : 1 ≤ κ₄)
    (hω₁ : ω₁ = log (1 + (exp (2 * η + 3 * log (1 + e)) - 1) * κ₁)) (hω₁' : exp ω₁ ≤ 2)
    (hω₂ : ω₂ = log (1 + (exp (ω₁ + 2 * log (1 + e)) - 1) * κ₂))
    (hζ : ζ = 2 * η + ω₂ + 4 * log (1 + e))
    (hω₃ : ω₃ = log (1 + (exp (ζ + log (1 + e)) - 1) * κ₃)) (hω₃' : exp ω₃ < 2)
    (hπ : π' = ω₃ - log (2 - exp ω₃) + log (1 + e)) (hc : c = log (1 + (exp π' - 1) * κ₄))
    {w' u' d' p' : ℝ} (hw' : w' = A.sqrt (A.sub (A.add (A.mul V' V') (A.mul 2 V')) 3))
    (hu' : u' = A.mul (A.div (A.mul M' V') 2) (A.add (A.add V' 1) w'))
    (hd' : d' = A.mul (A.div (A.mul M' V') 2) (A.sub (A.add V' 1) w'))
    (hp' : p' = A.div (A.sub M' d') (A.sub u' d')) :
    0 ≤ ζ ∧ 0 ≤ c ∧ Err ζ u' u u ∧ Err ζ d' d d ∧ Err c p' ((M - d) / (u - d)) ((M - d) / (u - d)) ∧
      Err c (1 - p') (1 - (M - d) / (u - d)) (1 - (M - d) / (u - d)) := by
  obtain ⟨hd0, hdM, hMu⟩ := tian_aux hM0 hV1
  rw [← hw, ← hd] at hd0 hdM
  rw [← hw, ← hu] at hMu
  set L := log (1 + e) with hLdef
  have hL : 0 ≤ L := log_nonneg (by linarith)
  have hQ : 0 < V * V + 2 * V - 3 := by nlinarith
  have hV0 : 0 < V := by linarith
  have hw0 : 0 < w := by rw [hw]; exact sqrt_pos.2 hQ
  have hdiff : 0 < V + 1 - w := by
    have : 0 < M * V / 2 := by positivity
    rw [hd] at hd0
    exact (pos_iff_pos_of_mul_pos hd0).1 this
  have k1 : 1 ≤ κ₁ := by
    by_contra hlt
    push Not at hlt
    have := mul_lt_mul_of_pos_right hlt hQ
    linarith
  have k2 : 1 ≤ κ₂ := by
    by_contra hlt
    push Not at hlt
    have := mul_lt_mul_of_pos_right hlt hdiff
    linarith
  have k3 : 1 ≤ κ₃ := by
    by_contra hlt
    push Not at hlt
    have := mul_lt_mul_of_pos_right hlt (sub_pos.2 hdM)
    linarith
  have l1 : 2 * η + 3 * L ≤ ω₁ := by rw [hω₁]; exact cond_level (by positivity) k1
  have l2 : ω₁ + 2 * L ≤ ω₂ := by rw [hω₂]; exact cond_level (by linarith) k2
  have hζ0 : 0 ≤ ζ := by linarith
  have l3 : ζ + L ≤ ω₃ := by rw [hω₃]; exact cond_level (by positivity) k3
  have hπ0 : 0 ≤ π' := by
    have := level_nonneg (ω := ω₃) (by linarith) hω₃'
    linarith
  have l4 : π' ≤ c := by rw [hc]; exact cond_level hπ0 hκ4'
  -- the root
  have h2 : Err 0 (2 : ℝ) 2 2 := Err.rfl' (by norm_num)
  have h1 : Err (η + L) (1 : ℝ) 1 1 := (Err.rfl' (by norm_num)).mono (by positivity)
  have h3 : Err (2 * η + 2 * L) (3 : ℝ) 3 3 := (Err.rfl' (by norm_num)).mono (by positivity)
  have hVV := (rel_mul hA he hVe hVe).mono (θ' := 2 * η + L) (by rw [← hLdef]; linarith)
  have h2V := (rel_mul hA he h2 hVe).mono (θ' := 2 * η + L) (by rw [← hLdef]; linarith)
  have hs1 := (rel_add hA he hVV h2V).mono (θ' := 2 * η + 2 * L) (by rw [← hLdef]; linarith)
  have hs2 := rel_sub hA he hs1 h3 (by positivity) (by linarith) hκ1
  rw [← hLdef, show 2 * η + 2 * L + L = 2 * η + 3 * L by ring, ← hω₁] at hs2
  have hwe := rel_sqrt hA he hs2 hω₁'
  rw [← hLdef, ← hw', ← hw] at hwe
  -- the moves
  have h1' : Err η (1 : ℝ) 1 1 := (Err.rfl' (by norm_num)).mono hη0
  have hV1e := (rel_add hA he hVe h1').mono (θ' := ω₁ + L) (by rw [← hLdef]; linarith)
  have hup := rel_add hA he hV1e hwe
  have hdn := rel_sub hA he hV1e hwe (by linarith) (by linarith) hκ2
  rw [← hLdef] at hup hdn
  rw [show ω₁ + L + L = ω₁ + 2 * L by ring] at hup hdn
  rw [← hω₂] at hdn
  have hMV := rel_half hA he (rel_mul hA he hMe hVe)
  rw [← hLdef] at hMV
  have hue := (rel_mul hA he hMV hup).mono (θ' := ζ) (by rw [← hLdef]; linarith)
  have hde := (rel_mul hA he hMV hdn).mono (θ' := ζ) (by rw [← hLdef]; linarith)
  rw [← hu', ← hu] at hue
  rw [← hd', ← hd] at hde
  -- the probability
  have hMe' := hMe.mono (θ' := ζ) (by linarith)
  have hpe := quot_err hA he hMe' hde hue hde hζ0 hdM.le (hdM.trans hMu) hκ3 hκ3' (by rw [hω₃]) hω₃'
  rw [← hLdef, ← hp', show ω₃ + -log (2 - exp ω₃) + L = π' by rw [hπ]; ring] at hpe
  have hD : 0 < u - d := by linarith
  have hq : 1 - (M - d) / (u - d) = (u - M) / (u - d) := by field_simp; ring
  have hq0 : 0 < (u - M) / (u - d) := div_pos (by linarith) hD
  refine ⟨hζ0, hπ0.trans l4, hue, hde, hpe.mono l4, ?_, ?_⟩
  · rw [sub_sub_sub_cancel_left, abs_sub_comm, hq]
    refine hpe.err.trans ?_
    have hx := one_le_exp hπ0
    rw [hc, exp_log (by nlinarith), add_sub_cancel_left, mul_assoc]
    refine mul_le_mul_of_nonneg_left ?_ (by linarith)
    rw [← mul_div_assoc]
    gcongr
  · rw [hq]; exact (abs_of_pos hq0).le

/-- C85: TIAN trees from the parameters to the price. `κ₁`, `κ₂`, `κ₃` are the condition numbers of the subtractions under the
root, in the down move and in the up probability, `κ₄` bounds the odds of an up move. -/
theorem C85_tian {e : ℝ} {A : Arith} (hA : Rounded e A) (he : 0 ≤ e) (o : Opt)
    (hS : 0 ≤ o.S) (hK : 0 ≤ o.K) (h : TreeValid o)
    (htype : o.type = "european" ∨ o.type = "american") (isCall : Bool)
    {M V w u d η κ₁ κ₂ κ₃ κ₄ ω₁ ω₂ ζ ω₃ π' c : ℝ} (hM : M = exp (o.b * (o.t / o.n))) (hV : V = exp (o.sigma ^ 2 * (o.t / o.n)))
    (hw : w = √(V * V + 2 * V - 3)) (hu : u = M * V / 2 * (V + 1 + w)) (hd : d = M * V / 2 * (V + 1 - w))
    (hη : η = ((1 + e) ^ 3 - 1) * ((|o.b| + |o.r| + o.sigma ^ 2) * (o.t / o.n)) + log (1 + e))
    (hκ1 : V * V + 2 * V + 3 ≤ κ₁ * (V * V + 2 * V - 3)) (hκ2 : V + 1 + w ≤ κ₂ * (V + 1 - w))
    (hκ3 : M + d ≤ κ₃ * (M - d)) (hκ3' : u + d ≤ κ₃ * (u - d)) (hκ4 : M - d ≤ κ₄ * (u - M)) (hκ4' : 1 ≤ κ₄)
    (hω₁ : ω₁ = log (1 + (exp (2 * η + 3 * log (1 + e)) - 1) * κ₁)) (hω₁' : exp ω₁ ≤ 2)
    (hω₂ : ω₂ = log (1 + (exp (ω₁ + 2 * log (1 + e)) - 1) * κ₂))
    (hζ : ζ = 2 * η + ω₂ + 4 * log (1 + e))
    (hω₃ : ω₃ = log (1 + (exp (ζ + log (1 + e)) - 1) * κ₃)) (hω₃' : exp ω₃ < 2)
    (hπ : π' = ω₃ - log (2 - exp ω₃) + log (1 + e)) (hc : c = log (1 + (exp π' - 1) * κ₄)) :
    ∃ v' v, TreeFl.price A .tian o isCall = .ok v' ∧ Tree.price .tian o isCall = .ok v ∧
      |v' - v| ≤ (exp ((8 + 4 * o.n) * log (1 + e) + o.n * (ζ + c + η)) - 1)
        * (exp (max 0 (max (o.b - o.r) (-o.r)) * o.t) * (o.S + o.K)) := by
  obtain ⟨S, K, t, r, b, σ, type, n⟩ := o
  have ht := h.t
  have hσ := h.sigma
  have hn := h.n
  have hn0 := h.ne
  dsimp only at *
  set L := log (1 + e) with hLdef
  have hL : 0 ≤ L := log_nonneg (by linarith)
  have hn' : (0 : ℝ) < n := by exact_mod_cast hn
  have hdt : 0 < t / n := by positivity
  have e3 : exp (3 * L) = (1 + e) ^ 3 := by exact_mod_cast exp_nat_log he 3
  have e30 : 0 ≤ (1 + e) ^ 3 - 1 := by
    have : (1 : ℝ) ≤ (1 + e) ^ 3 := one_le_pow₀ (by linarith)
    linarith
  have e23 : exp (2 * L) - 1 ≤ (1 + e) ^ 3 - 1 := by
    rw [← e3]
    have : exp (2 * L) ≤ exp (3 * L) := by gcongr; norm_num
    linarith
  have p1 : 0 ≤ σ ^ 2 * (t / n) := by positivity
  have p2 : 0 ≤ |b| * (t / n) := by positivity
  have p3 : 0 ≤ |r| * (t / n) := by positivity
  have q1 := mul_nonneg e30 p1
  have q2 := mul_nonneg e30 p2
  have q3 := mul_nonneg e30 p3
  have hη' : η = ((1 + e) ^ 3 - 1) * (σ ^ 2 * (t / n)) + ((1 + e) ^ 3 - 1) * (|b| * (t / n))
      + ((1 + e) ^ 3 - 1) * (|r| * (t / n)) + L := by rw [hη]; ring
  have hη0 : 0 ≤ η := by linarith
  have hV1 : 1 < V := by rw [hV]; exact one_lt_exp_iff.2 (by positivity)
  have hM0 : 0 < M := by rw [hM]; exact exp_pos _
  obtain ⟨hd0, hdM, hMu⟩ := tian_aux hM0 hV1
  rw [← hw, ← hd] at hd0 hdM
  rw [← hw, ← hu] at hMu
  -- `M`, `V`, `Df`
  have hDT := dt_err hA he ht.le n
  rw [← hLdef] at hDT
  have hMe := (exp_dt_err hA he ht.le n b).mono (θ' := η) (by
    rw [← hLdef]
    have := mul_le_mul_of_nonneg_right e23 p2
    linarith)
  have hDf := (exp_dt_err hA he ht.le n (-r)).mono (θ' := η) (by
    rw [abs_neg, ← hLdef]
    have := mul_le_mul_of_nonneg_right e23 p3
    linarith)
  rw [← hM] at hMe
  have hVe : Err η (A.exp (A.mul (A.pow σ 2) (A.div t n))) V V := by
    have h1 : Err L (A.pow σ 2) (σ ^ 2) (σ ^ 2) := by
      have := (Err.rfl' (y := σ ^ 2) (B := σ ^ 2) (abs_of_nonneg (by positivity)).le).round he (hA.pow σ 2)
      rwa [← hLdef, zero_add] at this
    have h2 := (rel_mul hA he h1 hDT).mono (θ' := 3 * L) (by rw [← hLdef]; linarith)
    rw [hV]
    refine (rel_exp hA he h2).mono ?_
    rw [← hLdef, e3]
    linarith
  obtain ⟨hζ0, hc0, hue, hde, hpe, hqe⟩ := tian_err hA he hMe hVe hη0 hM0 hV1 hw hu hd hκ1 hκ2 hκ3 hκ3' hκ4 hκ4' hω₁ hω₁' hω₂ hζ
    hω₃ hω₃' hπ hc rfl rfl rfl rfl
  have hlt : d < u := hdM.trans hMu
  have hmean : (M - d) / (u - d) * u + (1 - (M - d) / (u - d)) * d = M := by
    have : u - d ≠ 0 := by linarith
    field_simp; ring
  obtain ⟨am, rfl⟩ : ∃ am, typeOf am = type := by
    rcases htype with rfl | rfl
    exacts [⟨false, rfl⟩, ⟨true, rfl⟩]
  obtain ⟨v', v, h1, h2, h3⟩ := binomial_err hA he hS hK hue hde hpe hqe hDf hζ0 hc0 hη0
    (M := exp (max 0 (max (b - r) (-r)) * (t / n)))
    (one_le_exp (by positivity)) (growth_le hdt.le ((le_max_right _ _).trans (le_max_right _ _)))
    (by
      rw [hmean, hM, ← exp_add, show -r * (t / n) + b * (t / n) = (b - r) * (t / n) by ring]
      exact growth_le hdt.le ((le_max_left _ _).trans (le_max_right _ _)))
    am isCall n
  refine ⟨v', v, ?_, ?_, ?_⟩
  · simp only [TreeFl.price, if_neg hn0, TreeFl.factors]
    exact h1
  · simp only [Tree.price, if_neg hn0, Tree.factors]
    rw [← h2, hd, hu, hw, hV, hM]
  · refine h3.err.trans (le_of_eq ?_)
    have hpow : exp (max 0 (max (b - r) (-r)) * (t / n)) ^ n = exp (max 0 (max (b - r) (-r)) * t) := by
      rw [← exp_nat_mul]; congr 1; field_simp
    rw [hpow]

end Verif.Props
