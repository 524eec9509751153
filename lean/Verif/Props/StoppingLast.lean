import Verif.Props.Stopping
import Verif.Props.TrinomialShape

/-!
# C111: European prices of the other lattices are means at the last date
-/
namespace Verif.Props
open Real Spec Finset _root_.Verif.Tree Py

/-- **C111, JR tree.** The European price is the mean at the last date. -/
theorem C111_jr_european (S K t r b σ : ℝ) (n : ℕ) (hn : 0 < n) (isCall : Bool) (u d : ℝ)
    (hu : u = exp ((b - σ ^ 2 / 2) * (t / n) + σ * √(t / n))) (hd : d = exp ((b - σ ^ 2 / 2) * (t / n) - σ * √(t / n))) :
    price .jr ⟨S, K, t, r, b, σ, "european", n⟩ isCall = .ok (stoppedMean (binWeight (1 / 2)) (exp (-r * (t / n)))
      (binMove u d) (fun s => payoff isCall s K) n S (fun _ => n)) := by
  subst hd hu
  exact binomial_last .jr ⟨S, K, t, r, b, σ, "european", n⟩ hn rfl isCall

/-- **C111, TIAN tree.** The European price is the mean at the last date. -/
theorem C111_tian_european (S K t r b σ : ℝ) (n : ℕ) (hn : 0 < n) (isCall : Bool) (M V u d p : ℝ)
    (hM : M = exp (b * (t / n))) (hV : V = exp (σ ^ 2 * (t / n))) (hu : u = M * V / 2 * (V + 1 + √(V * V + 2 * V - 3)))
    (hd : d = M * V / 2 * (V + 1 - √(V * V + 2 * V - 3))) (hp : p = (M - d) / (u - d)) :
    price .tian ⟨S, K, t, r, b, σ, "european", n⟩ isCall = .ok (stoppedMean (binWeight p) (exp (-r * (t / n)))
      (binMove u d) (fun s => payoff isCall s K) n S (fun _ => n)) := by
  subst hp hd hu hV hM
  exact binomial_last .tian ⟨S, K, t, r, b, σ, "european", n⟩ hn rfl isCall

/-- The European price in the factors of the trinomial class. -/
theorem trinomial_last (o : Opt) (h : TreeValid o) (hty : o.type = "european") (isCall : Bool) :
    price3 o isCall = .ok (stoppedMean ![(factors3 o).pu, (factors3 o).pm, (factors3 o).pd]
      (exp (-o.r * (o.t / o.n))) (triMove (factors3 o).u (factors3 o).d) (fun s => payoff isCall s o.K) o.n o.S
      (fun _ => o.n)) := by
  obtain ⟨-, -, q2, -⟩ := C24_trinomial o h
  obtain ⟨e1, e2, e3, e4, e5, e6⟩ := factors3_eq h
  have hvf : price3 o isCall = .ok (vf false isCall o.K (fun f =>
      binOp (factors .crr { o with n := 2 * o.n }).Df (factors .crr { o with n := 2 * o.n }).p
        (factors .crr { o with n := 2 * o.n }).u (factors .crr { o with n := 2 * o.n }).u⁻¹
        (binOp (factors .crr { o with n := 2 * o.n }).Df (factors .crr { o with n := 2 * o.n }).p
        (factors .crr { o with n := 2 * o.n }).u (factors .crr { o with n := 2 * o.n }).u⁻¹ f)) o.n o.S) := by
    rw [C25_trinomial_eq_crr o h hty isCall,
      price_vf (am := false) (o := { o with n := 2 * o.n }) (c := .crr) (by show 0 < 2 * o.n; have := h.n; omega) hty isCall, vf_comp]
    have hd : (factors .crr { o with n := 2 * o.n }).d = (factors .crr { o with n := 2 * o.n }).u⁻¹ := by
      simp [factors]
    rw [hd]
  rw [hvf]
  have hD : exp (-o.r * (o.t / o.n)) = (factors3 o).Df := rfl
  congr 1
  refine vf_mean (w := ![(factors3 o).pu, (factors3 o).pm, (factors3 o).pd]) (f := ![(factors3 o).u, 1, (factors3 o).d])
    ?_ (fun F s => ?_) isCall o.K o.n o.S
  · simpa [Fin.sum_univ_three] using q2
  · rw [hD, e1, e2, e3, e4, e5, e6]
    simp only [Fin.sum_univ_three, binOp, Matrix.cons_val]
    have hu : (factors .crr { o with n := 2 * o.n }).u ≠ 0 := (exp_pos _).ne'
    generalize factors .crr { o with n := 2 * o.n } = g at hu
    have k1 : s * g.u * g.u = s * g.u ^ 2 := by ring
    have k2 : s * g.u * g.u⁻¹ = s * 1 := by field_simp
    have k3 : s * g.u⁻¹ * g.u = s * 1 := by field_simp
    have k4 : s * g.u⁻¹ * g.u⁻¹ = s * g.u⁻¹ ^ 2 := by ring
    rw [k1, k2, k3, k4]
    ring

/-- **C111, trinomial tree.** The European price is the mean at the last date; the middle weight may be negative here. -/
theorem C111_trinomial_european (S K t r b σ : ℝ) (n : ℕ) (ht : 0 < t) (hσ : 0 < σ) (hn : 0 < n)
    (isCall : Bool) (u v q p m : ℝ) (hu : u = exp (σ * √(2 * (t / n)))) (hv : v = exp (σ * √(t / n / 2)))
    (hp : p = ((exp (b * (t / n) / 2) - v⁻¹) / (v - v⁻¹)) ^ 2) (hq : q = ((v - exp (b * (t / n) / 2)) / (v - v⁻¹)) ^ 2)
    (hm : m = 1 - p - q) :
    price3 ⟨S, K, t, r, b, σ, "european", n⟩ isCall = .ok (stoppedMean ![p, m, q] (exp (-r * (t / n)))
      (triMove u u⁻¹) (fun s => payoff isCall s K) n S (fun _ => n)) := by
  have h := trinomial_last ⟨S, K, t, r, b, σ, "european", n⟩ ⟨ht, hσ, hn⟩ rfl isCall
  have e1 : exp (-σ * √(2 * (t / n))) = u⁻¹ := by rw [hu, neg_mul, exp_neg]
  have e2 : exp (-σ * √(t / n / 2)) = v⁻¹ := by rw [hv, neg_mul, exp_neg]
  simp only [factors3, e1, e2, ← hu, ← hv, ← hp, ← hq, ← hm] at h
  exact h

/-- A move of the two-asset lattice leads to the neighbouring node. -/
theorem pairMove_node (o : Tree3d.Opt) (m j i : ℕ) (a c : Bool) :
    pairMove o.b1 o.b2 o.sigma1 o.sigma2 o.rho (o.t / o.n) (asset1 o m j, asset2 o m j i) (a, c)
      = (asset1 o (m + 1) (j + if a then 1 else 0), asset2 o (m + 1) (j + if a then 1 else 0) (i + if c then 1 else 0)) := by
  unfold pairMove asset1 asset2
  simp only
  rw [mul_assoc, mul_assoc, ← exp_add, ← exp_add]
  refine Prod.ext ?_ ?_
  · simp only
    congr 2
    cases a <;> simp only [sgn, if_true, Bool.false_eq_true, if_false] <;> push_cast <;> ring
  · simp only
    congr 2
    cases a <;> cases c <;> simp only [sgn, if_true, Bool.false_eq_true, if_false] <;> push_cast <;> ring

/-- **C111, two-asset tree.** The European price is the mean of the discounted payoff over the `4ⁿ` equally likely sequences of
moves at the last date. -/
theorem C111_two_asset_european (o : Tree3d.Opt) (hn : 0 < o.n) (hty : o.otype ≠ "american") (isCall : Bool) (f : ℝ → ℝ → ℝ)
    (hf : PaysOff o isCall f) :
    Tree3d.price o isCall = .ok (stoppedMean (fun _ : Bool × Bool => 1 / 4) (exp (-o.r * (o.t / o.n)))
      (pairMove o.b1 o.b2 o.sigma1 o.sigma2 o.rho (o.t / o.n)) (fun s => f s.1 s.2) o.n (o.S1, o.S2) (fun _ => o.n)) := by
  obtain ⟨V, hV⟩ := exists_value (fun m j i => f (asset1 o m j) (asset2 o m j i)) false (exp (-o.r * (o.t / o.n))) o.n
  rw [(price_eq' hn (by simp [hty]) hf hV).1]
  have hw : ∑ _a : Bool × Bool, (1 / 4 : ℝ) = 1 := by simp
  have key : ∀ m ≤ o.n, ∀ j ≤ m, ∀ i ≤ m, V m j i = stoppedMean (fun _ : Bool × Bool => 1 / 4) (exp (-o.r * (o.t / o.n)))
      (pairMove o.b1 o.b2 o.sigma1 o.sigma2 o.rho (o.t / o.n)) (fun s => f s.1 s.2) (o.n - m) (asset1 o m j, asset2 o m j i)
      (fun _ => o.n - m) := by
    refine level_induction (fun j hj i hi => ?_) (fun m hm ih j hj i hi => ?_)
    · rw [hV.terminal j hj i hi, Nat.sub_self, Stopping.mean_zero hw _ fun _ => rfl]
    · have hb := hV.back m hm j hj i hi
      simp only [Bool.false_eq_true, if_false] at hb
      obtain ⟨k, hk⟩ : ∃ k, o.n - m = k + 1 := ⟨o.n - m - 1, by omega⟩
      have hk1 : o.n - (m + 1) = k := by omega
      rw [hb, hk, Stopping.mean_succ (τ' := fun _ _ => k) _ fun _ _ => rfl, Fintype.sum_prod_type]
      simp only [Fintype.sum_bool, pairMove_node]
      rw [ih j (by omega) i (by omega), ih (j + 1) (by omega) i (by omega),
        ih j (by omega) (i + 1) (by omega), ih (j + 1) (by omega) (i + 1) (by omega), hk1]
      simp only [if_true, Bool.false_eq_true, if_false, add_zero]
      ring
  rw [key 0 (by omega) 0 le_rfl 0 le_rfl, Nat.sub_zero]
  have e1 : asset1 o 0 0 = o.S1 := by simp [asset1]
  have e2 : asset2 o 0 0 0 = o.S2 := by simp [asset2]
  rw [e1, e2]

/-- Non-vacuous: the documented spread option as a mean over `4¹⁰⁰` sequences of moves. -/
theorem C111_two_asset_example : Tree3d.price (exampleSpread "european") true
    = .ok (stoppedMean (fun _ : Bool × Bool => 1 / 4)
    (exp (-(1 / 10) * (1 / 10 / (100 : ℕ)))) (pairMove 0 0 (1 / 5) (1 / 5) (-1 / 2) (1 / 10 / (100 : ℕ)))
    (fun s => Spec.TwoAsset.documented 1 true (1 * s.1) (1 * s.2) 3 0) 100 (122, 120) (fun _ => 100)) :=
  C111_two_asset_european (exampleSpread "european") (by norm_num [exampleSpread]) (by decide) true
    (fun s1 s2 => Spec.TwoAsset.documented 1 true (1 * s1) (1 * s2) 3 0) (fun s1 s2 => by
      simp [Tree3d.payoff, exampleSpread, Tree3d.num, zOf, Spec.TwoAsset.documented, bind, Except.bind, pure, Except.pure])

end Verif.Props
