import Verif.Lemmas.OptimalStopping
import Verif.Props.TreeOrder
import Verif.Props.Tree3d

/-!
# C111: American lattice prices are optimal stopping values

The American price of each lattice is the largest mean discounted payoff over all stopping times, that is over all ways of
deciding when to exercise from the moves seen so far; and some stopping time attains it. A European price is the mean at the
last date.
-/
namespace Verif.Props
open Real Spec Finset _root_.Verif.Tree Py

/-- Up and down moves of a price. -/
def binMove (u d : ℝ) (s : ℝ) (up : Bool) : ℝ := s * if up then u else d

/-- Probabilities of up and down. -/
def binWeight (p : ℝ) (up : Bool) : ℝ := if up then p else 1 - p

theorem max_intrinsic {isCall : Bool} {s K x : ℝ} (hx : 0 ≤ x) : max (intrinsic isCall s K) x = max (payoff isCall s K) x := by
  rw [payoff_eq, max_assoc, max_eq_right hx]

theorem vf_nonneg' {T : (ℝ → ℝ) → ℝ → ℝ} (h0 : ∀ f, (∀ s, 0 ≤ f s) → ∀ s, 0 ≤ T f s) (am isCall : Bool) (K : ℝ) (m : ℕ) :
    ∀ s, 0 ≤ vf am isCall K T m s := by
  induction m with
  | zero => intro s; cases isCall <;> simp [vf, payoff]
  | succ m ih =>
    intro s
    have := h0 _ ih s
    cases am
    · simpa [vf] using this
    · simp only [vf, if_true]; exact le_max_of_le_right this

/-- Value functions of the lattices solve the stopping problem. -/
theorem vf_stopping {α : Type} [Fintype α] {T : (ℝ → ℝ) → ℝ → ℝ} {w f : α → ℝ} {D : ℝ} (hw0 : ∀ a, 0 ≤ w a)
    (hw : ∑ a, w a = 1) (hD : 0 ≤ D) (hT : ∀ F s, T F s = D * ∑ a, w a * F (s * f a)) (isCall : Bool) (K : ℝ) (n : ℕ) (s : ℝ) :
    IsStoppingValue w D (fun s a => s * f a) (fun s => payoff isCall s K) n s (vf true isCall K T n s) := by
  have h0 : ∀ F, (∀ s, 0 ≤ F s) → ∀ s, 0 ≤ T F s := fun F hF s => by
    rw [hT]; exact mul_nonneg hD (sum_nonneg fun a _ => mul_nonneg (hw0 a) (hF _))
  refine Stopping.isStoppingValue (V := vf true isCall K T) hw0 hw hD (fun s => rfl) (fun m s => ?_) n s
  simp only [vf, if_true]
  rw [max_intrinsic (h0 _ (vf_nonneg' h0 true isCall K m) s), hT]

/-- The mean over all paths at the last date. -/
theorem vf_mean {α : Type} [Fintype α] {T : (ℝ → ℝ) → ℝ → ℝ} {w f : α → ℝ} {D : ℝ} (hw : ∑ a, w a = 1)
    (hT : ∀ F s, T F s = D * ∑ a, w a * F (s * f a)) (isCall : Bool) (K : ℝ) (n : ℕ) (s : ℝ) :
    vf false isCall K T n s
      = stoppedMean w D (fun s a => s * f a) (fun s => payoff isCall s K) n s (fun _ => n) := by
  induction n generalizing s with
  | zero => rw [Stopping.mean_zero hw s fun _ => rfl]; rfl
  | succ n ih =>
    rw [Stopping.mean_succ (τ' := fun _ _ => n) s fun _ _ => rfl]
    simp only [vf, Bool.false_eq_true, if_false]
    rw [hT]
    simp_rw [ih]

/-- The American price in the factors of the class. -/
theorem binomial_stopping (c : Cls) (o : Opt) (h : TreeValid o) (hp : ProbOK c o) (hty : o.type = "american") (isCall : Bool) :
    ∃ x, price c o isCall = .ok x ∧ IsStoppingValue (binWeight (factors c o).p) (exp (-o.r * (o.t / o.n)))
      (binMove (factors c o).u (factors c o).d) (fun s => payoff isCall s o.K) o.n o.S x := by
  obtain ⟨p0, p1⟩ := prob_ok h hp
  refine ⟨_, price_vf (am := true) h.n hty isCall, ?_⟩
  rw [Df_eq]
  refine vf_stopping (w := binWeight (factors c o).p) (f := fun up => if up then (factors c o).u else (factors c o).d)
    (fun a => ?_) ?_ (exp_pos _).le (fun F s => ?_) isCall o.K o.n o.S
  · cases a
    · simpa [binWeight] using p1
    · simpa [binWeight] using p0
  · simp [binWeight]
  · simp [binWeight, binOp]

/-- The European price in the factors of the class. -/
theorem binomial_last (c : Cls) (o : Opt) (hn : 0 < o.n) (hty : o.type = "european") (isCall : Bool) :
    price c o isCall = .ok (stoppedMean (binWeight (factors c o).p) (exp (-o.r * (o.t / o.n)))
      (binMove (factors c o).u (factors c o).d) (fun s => payoff isCall s o.K) o.n o.S (fun _ => o.n)) := by
  rw [price_vf (am := false) hn hty isCall, Df_eq]
  congr 1
  refine vf_mean (w := binWeight (factors c o).p) (f := fun up => if up then (factors c o).u else (factors c o).d)
    ?_ (fun F s => ?_) isCall o.K o.n o.S
  · simp [binWeight]
  · simp [binWeight, binOp]

/-- **C111, CRR tree.** The American price is the largest mean, over the `2ⁿ` paths with probability `p` of an up move, of
the discounted payoff at a stopping time. -/
theorem C111_crr (S K t r b σ : ℝ) (n : ℕ) (ht : 0 < t) (hσ : 0 < σ) (hn : 0 < n) (hb : |b| * √(t / n) ≤ σ) (isCall : Bool)
    (u d p : ℝ) (hu : u = exp (σ * √(t / n))) (hd : d = 1 / u) (hp : p = (exp (b * (t / n)) - d) / (u - d)) :
    ∃ x, price .crr ⟨S, K, t, r, b, σ, "american", n⟩ isCall = .ok x ∧ IsStoppingValue (binWeight p) (exp (-r * (t / n)))
      (binMove u d) (fun s => payoff isCall s K) n S x := by
  subst hp hd hu
  exact binomial_stopping .crr ⟨S, K, t, r, b, σ, "american", n⟩ ⟨ht, hσ, hn⟩ (fun _ => hb) rfl isCall

/-- **C111, JR tree.** -/
theorem C111_jr (S K t r b σ : ℝ) (n : ℕ) (ht : 0 < t) (hσ : 0 < σ) (hn : 0 < n) (isCall : Bool) (u d : ℝ)
    (hu : u = exp ((b - σ ^ 2 / 2) * (t / n) + σ * √(t / n))) (hd : d = exp ((b - σ ^ 2 / 2) * (t / n) - σ * √(t / n))) :
    ∃ x, price .jr ⟨S, K, t, r, b, σ, "american", n⟩ isCall = .ok x ∧ IsStoppingValue (binWeight (1 / 2)) (exp (-r * (t / n)))
      (binMove u d) (fun s => payoff isCall s K) n S x := by
  subst hd hu
  exact binomial_stopping .jr ⟨S, K, t, r, b, σ, "american", n⟩ ⟨ht, hσ, hn⟩ (fun h => nomatch h) rfl isCall

/-- **C111, TIAN tree.** -/
theorem C111_tian (S K t r b σ : ℝ) (n : ℕ) (ht : 0 < t) (hσ : 0 < σ) (hn : 0 < n) (isCall : Bool) (M V u d p : ℝ)
    (hM : M = exp (b * (t / n))) (hV : V = exp (σ ^ 2 * (t / n))) (hu : u = M * V / 2 * (V + 1 + √(V * V + 2 * V - 3)))
    (hd : d = M * V / 2 * (V + 1 - √(V * V + 2 * V - 3))) (hp : p = (M - d) / (u - d)) :
    ∃ x, price .tian ⟨S, K, t, r, b, σ, "american", n⟩ isCall = .ok x ∧ IsStoppingValue (binWeight p) (exp (-r * (t / n)))
      (binMove u d) (fun s => payoff isCall s K) n S x := by
  subst hp hd hu hV hM
  exact binomial_stopping .tian ⟨S, K, t, r, b, σ, "american", n⟩ ⟨ht, hσ, hn⟩ (fun h => nomatch h) rfl isCall

/-- **C111, binomial trees.** The European price is the mean at the last date of the same paths: CRR. The other classes
are in `StoppingLast`. -/
theorem C111_crr_european (S K t r b σ : ℝ) (n : ℕ) (hn : 0 < n) (isCall : Bool)
    (u d p : ℝ) (hu : u = exp (σ * √(t / n))) (hd : d = 1 / u) (hp : p = (exp (b * (t / n)) - d) / (u - d)) :
    price .crr ⟨S, K, t, r, b, σ, "european", n⟩ isCall = .ok (stoppedMean (binWeight p) (exp (-r * (t / n)))
      (binMove u d) (fun s => payoff isCall s K) n S (fun _ => n)) := by
  subst hp hd hu
  exact binomial_last .crr ⟨S, K, t, r, b, σ, "european", n⟩ hn rfl isCall

/-- The documented tree and one of the stopping times compared: exercising after the first move if it was down. -/
example : ∃ x, price .crr (exampleTree "american") false = .ok x ∧ IsStopping 5 (fun ω : Fin 5 → Bool => if ω 0 then 5 else 1) ∧
    stoppedMean (binWeight (factors .crr (exampleTree "american")).p) (exp (-(1 / 10) * (5 / 12 / (5 : ℕ))))
      (binMove (factors .crr (exampleTree "american")).u (factors .crr (exampleTree "american")).d) (fun s => payoff false s 50) 5 50
      (fun ω => if ω 0 then 5 else 1) ≤ x := by
  obtain ⟨x, hx, hv⟩ := binomial_stopping .crr _ (exampleTree_valid "american") (exampleTree_prob _ _) rfl false
  have hs : IsStopping 5 (fun ω : Fin 5 → Bool => if ω 0 then 5 else 1) := by
    intro ω
    dsimp only
    refine ⟨by split_ifs <;> norm_num, fun ω' h => ?_⟩
    have : ω' 0 = ω 0 := h 0 (by split_ifs <;> norm_num)
    rw [this]
  exact ⟨x, hx, hs, hv.2 ⟨_, hs, rfl⟩⟩

/-- Moves of the trinomial lattice: up, unchanged, down. -/
def triMove (u d : ℝ) (s : ℝ) (m : Fin 3) : ℝ := s * ![u, 1, d] m

/-- The American price in the factors of the trinomial class. -/
theorem trinomial_stopping (o : Opt) (h : TreeValid o) (hp : |o.b| * √(o.t / o.n / 2) ≤ o.sigma) (hty : o.type = "american")
    (isCall : Bool) :
    ∃ x, price3 o isCall = .ok x ∧ IsStoppingValue ![(factors3 o).pu, (factors3 o).pm, (factors3 o).pd]
      (exp (-o.r * (o.t / o.n))) (triMove (factors3 o).u (factors3 o).d) (fun s => payoff isCall s o.K) o.n o.S x := by
  obtain ⟨q0, q1, q2, q3⟩ := C24_trinomial o h
  obtain ⟨e1, e2, e3, e4, e5, e6⟩ := factors3_eq h
  refine ⟨_, price3_vf h hty isCall, ?_⟩
  have hD : exp (-o.r * (o.t / o.n)) = (factors3 o).Df := rfl
  refine vf_stopping (w := ![(factors3 o).pu, (factors3 o).pm, (factors3 o).pd]) (f := ![(factors3 o).u, 1, (factors3 o).d])
    (fun a => ?_) ?_ (exp_pos _).le (fun F s => ?_) isCall o.K o.n o.S
  · fin_cases a
    · exact q0
    · exact q3.2 hp
    · exact q1
  · simpa [Fin.sum_univ_three] using q2
  · rw [hD, e1, e2, e3, e4, e5, e6]
    simp only [Fin.sum_univ_three, binOp, Matrix.cons_val]
    have hu : (factors .crr { o with n := 2 * o.n }).u ≠ 0 := (exp_pos _).ne'
    generalize factors .crr { o with n := 2 * o.n } = g at hu
    have k1 : s * g.u * g.u = s * g.u ^ 2 := by ring
    have k2 : s * g.u * g.u⁻¹ = s * 1 := by field_simp
    have k3 : s * g.u⁻¹ * g.u = s * 1 := by field_simp
    have k4 : s * g.u⁻¹ * g.u⁻¹ = s * g.u⁻¹ ^ 2 := by ring
    rw [k1, k2, k3, k4]
    ring

/-- **C111, trinomial tree.** -/
theorem C111_trinomial (S K t r b σ : ℝ) (n : ℕ) (ht : 0 < t) (hσ : 0 < σ) (hn : 0 < n) (hb : |b| * √(t / n / 2) ≤ σ)
    (isCall : Bool) (u v q p m : ℝ) (hu : u = exp (σ * √(2 * (t / n)))) (hv : v = exp (σ * √(t / n / 2)))
    (hp : p = ((exp (b * (t / n) / 2) - v⁻¹) / (v - v⁻¹)) ^ 2) (hq : q = ((v - exp (b * (t / n) / 2)) / (v - v⁻¹)) ^ 2)
    (hm : m = 1 - p - q) :
    ∃ x, price3 ⟨S, K, t, r, b, σ, "american", n⟩ isCall = .ok x ∧ IsStoppingValue ![p, m, q] (exp (-r * (t / n)))
      (triMove u u⁻¹) (fun s => payoff isCall s K) n S x := by
  have h := trinomial_stopping ⟨S, K, t, r, b, σ, "american", n⟩ ⟨ht, hσ, hn⟩ hb rfl isCall
  have e1 : exp (-σ * √(2 * (t / n))) = u⁻¹ := by rw [hu, neg_mul, exp_neg]
  have e2 : exp (-σ * √(t / n / 2)) = v⁻¹ := by rw [hv, neg_mul, exp_neg]
  simp only [factors3, e1, e2, ← hu, ← hv, ← hp, ← hq, ← hm] at h
  exact h

/-- `1` for an up move, `-1` for a down move. -/
def sgn (up : Bool) : ℝ := if up then 1 else -1

/-- Joint moves of two prices over a period `δ`: the first factor drives both, the second only the second price. -/
noncomputable def pairMove (b1 b2 σ1 σ2 ρ δ : ℝ) (s : ℝ × ℝ) (a : Bool × Bool) : ℝ × ℝ :=
  (s.1 * exp ((b1 - σ1 ^ 2 / 2) * δ + σ1 * (sgn a.1 * √δ)),
   s.2 * exp ((b2 - σ2 ^ 2 / 2) * δ + σ2 * (ρ * (sgn a.1 * √δ) + √(1 - ρ ^ 2) * (sgn a.2 * √δ))))

/-- Backward induction on two prices. -/
noncomputable def pairValue (D : ℝ) (move : ℝ × ℝ → Bool × Bool → ℝ × ℝ) (g : ℝ × ℝ → ℝ) : ℕ → ℝ × ℝ → ℝ
  | 0, x => g x
  | m + 1, x => max (g x) (D * ∑ a, 1 / 4 * pairValue D move g m (move x a))

/-- **C111, two-asset tree.** The American price is the largest mean, over the `4ⁿ` equally likely sequences of moves of two
lognormal prices, of the discounted payoff at a stopping time. -/
theorem C111_two_asset (o : Tree3d.Opt) (hn : 0 < o.n) (hty : o.otype = "american") (isCall : Bool) (f : ℝ → ℝ → ℝ)
    (hf : PaysOff o isCall f) :
    ∃ x, Tree3d.price o isCall = .ok x ∧ IsStoppingValue (fun _ : Bool × Bool => 1 / 4) (exp (-o.r * (o.t / o.n)))
      (pairMove o.b1 o.b2 o.sigma1 o.sigma2 o.rho (o.t / o.n)) (fun s => f s.1 s.2) o.n (o.S1, o.S2) x := by
  obtain ⟨V, hV⟩ := exists_value (fun m j i => f (asset1 o m j) (asset2 o m j i)) true (exp (-o.r * (o.t / o.n))) o.n
  refine ⟨_, (price_eq' hn (by simp [hty]) hf hV).1, ?_⟩
  have key : ∀ m ≤ o.n, ∀ j ≤ m, ∀ i ≤ m, V m j i = pairValue (exp (-o.r * (o.t / o.n)))
      (pairMove o.b1 o.b2 o.sigma1 o.sigma2 o.rho (o.t / o.n)) (fun s => f s.1 s.2) (o.n - m) (asset1 o m j, asset2 o m j i) := by
    refine level_induction (fun j hj i hi => ?_) (fun m hm ih j hj i hi => ?_)
    · rw [hV.terminal j hj i hi, Nat.sub_self]; rfl
    · have hb := hV.back m hm j hj i hi
      simp only [if_true] at hb
      obtain ⟨k, hk⟩ : ∃ k, o.n - m = k + 1 := ⟨o.n - m - 1, by omega⟩
      have hk1 : o.n - (m + 1) = k := by omega
      rw [hb, hk, pairValue, max_comm, Fintype.sum_prod_type]
      simp only [Fintype.sum_bool]
      have hmove : ∀ a c : Bool, pairMove o.b1 o.b2 o.sigma1 o.sigma2 o.rho (o.t / o.n) (asset1 o m j, asset2 o m j i) (a, c)
          = (asset1 o (m + 1) (j + if a then 1 else 0), asset2 o (m + 1) (j + if a then 1 else 0) (i + if c then 1 else 0)) := by
        intro a c
        unfold pairMove asset1 asset2
        simp only
        rw [mul_assoc, mul_assoc, ← exp_add, ← exp_add]
        refine Prod.ext ?_ ?_
        · simp only
          congr 2
          cases a <;> simp only [sgn, if_true, Bool.false_eq_true, if_false] <;> push_cast <;> ring
        · simp only
          congr 2
          cases a <;> cases c <;> simp only [sgn, if_true, Bool.false_eq_true, if_false] <;> push_cast <;> ring
      rw [hmove, hmove, hmove, hmove, ih j (by omega) i (by omega), ih (j + 1) (by omega) i (by omega),
        ih j (by omega) (i + 1) (by omega), ih (j + 1) (by omega) (i + 1) (by omega), hk1]
      simp only [if_true, Bool.false_eq_true, if_false, add_zero]
      congr 1
      ring
  rw [key 0 (by omega) 0 le_rfl 0 le_rfl, Nat.sub_zero]
  have e1 : asset1 o 0 0 = o.S1 := by simp [asset1]
  have e2 : asset2 o 0 0 0 = o.S2 := by simp [asset2]
  rw [e1, e2]
  refine Stopping.isStoppingValue (V := pairValue _ _ _) (fun _ => by norm_num) ?_ (exp_pos _).le (fun _ => rfl) (fun _ _ => rfl) _ _
  simp

example : ∃ x, Tree3d.price (exampleSpread "american") true = .ok x ∧ IsStoppingValue (fun _ : Bool × Bool => 1 / 4)
    (exp (-(1 / 10) * (1 / 10 / (100 : ℕ)))) (pairMove 0 0 (1 / 5) (1 / 5) (-1 / 2) (1 / 10 / (100 : ℕ)))
    (fun s => Spec.TwoAsset.documented 1 true (1 * s.1) (1 * s.2) 3 0) 100 (122, 120) x :=
  C111_two_asset (exampleSpread "american") (by norm_num [exampleSpread]) rfl true
    (fun s1 s2 => Spec.TwoAsset.documented 1 true (1 * s1) (1 * s2) 3 0) (fun s1 s2 => by
      simp [Tree3d.payoff, exampleSpread, Tree3d.num, zOf, Spec.TwoAsset.documented, bind, Except.bind, pure, Except.pure])

end Verif.Props
