import Verif.Lemmas.Tree3dFl
import Verif.Lemmas.RelErr
import Verif.Props.Tree3d
import Verif.Props.TreeRounding

/-! C140 — the two-asset lattice in floating-point arithmetic. -/
namespace Verif.Props
open Spec Real Py Spec.TwoAsset _root_.Verif.Tree3d
open _root_.Verif.Tree (zOf)

/-- **C140.** In exact arithmetic the functions are those of the class. -/
theorem C140_exact (o : Opt) (isCall : Bool) : Tree3dFl.price Arith.exact o isCall = Tree3d.price o isCall := by
  have hpay : ∀ code z S1 S2 Q1 Q2 K K2,
      Tree3dFl.payoff Arith.exact code z S1 S2 Q1 Q2 K K2 = payoff code z S1 S2 Q1 Q2 K K2 := by
    intro code z S1 S2 Q1 Q2 K K2
    cases code <;> rfl
  have h : Tree3dFl.pay Arith.exact o isCall = o.pay isCall := by
    funext m j i
    unfold Tree3dFl.pay Opt.pay
    rw [hpay]
    rfl
  unfold Tree3dFl.price Tree3d.price
  rw [h]
  split_ifs
  · rfl
  · unfold Tree3dFl.calcPrice Tree3d.calcPrice Tree3d.calcTree
    simp only [bind_assoc]
    rfl

/-- Level of `sqrt(1 - rho**2)`: the subtraction has condition number `(1 + ρ²) / (1 - ρ²)`. -/
noncomputable def corrLevel (e ρ : ℝ) : ℝ := -log (1 - (exp (2 * level e) - 1) * ((1 + ρ ^ 2) / (1 - ρ ^ 2)))

/-- Sum of the sizes of the exponents over all steps. -/
noncomputable def exponents (o : Opt) : ℝ :=
  o.n * ((|o.b1| + |o.b2| + o.sigma1 ^ 2 / 2 + o.sigma2 ^ 2 / 2) * (o.t / o.n) + (|o.sigma1| + 2 * |o.sigma2|) * √(o.t / o.n))

/-- Level of the asset prices. -/
noncomputable def assetLevel (e : ℝ) (o : Opt) : ℝ :=
  (o.n + 4) * level e + (exp (7 * level e + corrLevel e o.rho) - 1) * exponents o

/-- Level of the price. -/
noncomputable def latticeLevel (e : ℝ) (o : Opt) : ℝ :=
  2 * assetLevel e o + (6 * o.n + 5) * level e + (exp (2 * level e) - 1) * (|o.r| * o.t)

/-- What goes into the payoff: the sum of the absolute values of its terms. -/
noncomputable def gross (o : Opt) (s1 s2 : ℝ) : ℝ :=
  (match o.option with
    | .outperformance => |o.Q1 * s1 / o.Q2 * s2|
    | .product => |o.Q1 * s1 * o.Q2 * s2|
    | _ => |o.Q1 * s1| + |o.Q2 * s2|) + |o.K.getD 0| + |o.K2.getD 0|

theorem err_min {θ x y B x' y' : ℝ} (h : Err θ x y B) (h' : Err θ x' y' B) : Err θ (min x x') (min y y') B := by
  have := (h.neg.max h'.neg).neg
  rwa [max_neg_neg, neg_neg, max_neg_neg, neg_neg] at this

theorem err_rel_exp {θ x y B : ℝ} (h : Err θ x y B) : Rel ((exp θ - 1) * B) (exp x) (exp y) :=
  ⟨x - y, h.err, by rw [← exp_add]; congr 1; ring⟩

section
variable {e : ℝ} {A : Arith} (hA : Rounded e A) (he : 0 ≤ e) (he1 : e < 1)
include hA he he1

omit hA in
theorem lattice_level_nonneg : 0 ≤ level e := by
  unfold level
  have := log_nonpos (by linarith) (by linarith : 1 - e ≤ 1)
  linarith

/-- The last two operations of a payoff. -/
theorem flavour_err {θ x y B : ℝ} (hθ : 0 ≤ θ) (h : Err θ x y B) (isCall : Bool) :
    Err (θ + level e) (max 0 (A.mul (zOf isCall) x)) (max 0 (zOf isCall * y)) B := by
  have hL := lattice_level_nonneg he he1
  have hz : |(zOf isCall : ℝ)| ≤ 1 := by cases isCall <;> simp [zOf]
  have h1 := ((Err.rfl' hz).mul h).round' he he1 (hA.mul _ _)
  rw [one_mul] at h1
  have h0 : Err (θ + level e) 0 0 B := (Err.rfl' (by rw [abs_zero]; exact h.nonneg)).mono (by linarith)
  exact h0.max (h1.mono (by unfold level; linarith))

/-- Each payoff, at asset prices known up to a factor. -/
theorem payoff3d_err {ν s1 s2 s1' s2' : ℝ} (hν : 0 ≤ ν) (o : Opt) (isCall : Bool) (hs : HasStrikes o.option o.K o.K2)
    (h1 : Rel ν s1' s1) (h2 : Rel ν s2' s2) :
    ∃ p' p, Tree3dFl.payoff A o.option (zOf isCall) s1' s2' o.Q1 o.Q2 o.K o.K2 = .ok p' ∧
      payoff o.option (zOf isCall) s1 s2 o.Q1 o.Q2 o.K o.K2 = .ok p ∧
      Err (2 * ν + 5 * level e) p' p (gross o s1 s2) := by
  have hL := lattice_level_nonneg he he1
  obtain ⟨S1, S2, t, r, b1, b2, σ1, σ2, ρ, K, K2, Q1, Q2, code, otype, n⟩ := o
  obtain ⟨hK, hK2⟩ := hs
  simp only at hK hK2 ⊢
  have x1 : Rel (ν + level e) (A.mul Q1 s1') (Q1 * s1) :=
    (((Rel.rfl' (y := Q1)).mul h1).round he he1 (hA.mul _ _)).mono (by unfold level; linarith)
  have x2 : Rel (ν + level e) (A.mul Q2 s2') (Q2 * s2) :=
    (((Rel.rfl' (y := Q2)).mul h2).round he he1 (hA.mul _ _)).mono (by unfold level; linarith)
  have k0 : ∀ (k θ : ℝ), 0 ≤ θ → Err θ k k |k| := fun k θ hθ => (Err.rfl' le_rfl).mono hθ
  have two : ν + level e ≤ 2 * ν + 5 * level e := by linarith
  have lev : -log (1 - e) = level e := rfl
  cases code
  case spread =>
    obtain ⟨k, rfl⟩ := Option.isSome_iff_exists.1 (hK (by simp))
    refine ⟨_, _, rfl, rfl, ?_⟩
    have a := (x1.err.sub x2.err).round' he he1 (hA.sub _ _)
    have b := (a.sub (k0 k _ (by linarith))).round' he he1 (hA.sub _ _)
    refine ((flavour_err hA he he1 (by linarith) b isCall).mono (by linarith)).weaken (by positivity) ?_
    simp only [gross, Option.getD_some]; linarith [abs_nonneg (K2.getD 0)]
  case maxOf =>
    obtain ⟨k, rfl⟩ := Option.isSome_iff_exists.1 (hK (by simp))
    refine ⟨_, _, rfl, rfl, ?_⟩
    have a := (x1.err.weaken (B' := |Q1 * s1| + |Q2 * s2|) (by linarith) (by linarith [abs_nonneg (Q2 * s2)])).max
      (x2.err.weaken (B' := |Q1 * s1| + |Q2 * s2|) (by linarith) (by linarith [abs_nonneg (Q1 * s1)]))
    have b := (a.sub (k0 k _ (by linarith))).round' he he1 (hA.sub _ _)
    refine ((flavour_err hA he he1 (by linarith) b isCall).mono (by linarith)).weaken (by positivity) ?_
    simp only [gross, Option.getD_some]; linarith [abs_nonneg (K2.getD 0)]
  case minOf =>
    obtain ⟨k, rfl⟩ := Option.isSome_iff_exists.1 (hK (by simp))
    refine ⟨_, _, rfl, rfl, ?_⟩
    have a := err_min (x1.err.weaken (B' := |Q1 * s1| + |Q2 * s2|) (by linarith) (by linarith [abs_nonneg (Q2 * s2)]))
      (x2.err.weaken (B' := |Q1 * s1| + |Q2 * s2|) (by linarith) (by linarith [abs_nonneg (Q1 * s1)]))
    have b := (a.sub (k0 k _ (by linarith))).round' he he1 (hA.sub _ _)
    refine ((flavour_err hA he he1 (by linarith) b isCall).mono (by linarith)).weaken (by positivity) ?_
    simp only [gross, Option.getD_some]; linarith [abs_nonneg (K2.getD 0)]
  case dual =>
    obtain ⟨k, rfl⟩ := Option.isSome_iff_exists.1 (hK (by simp))
    obtain ⟨k2, rfl⟩ := Option.isSome_iff_exists.1 (hK2 (by simp))
    refine ⟨_, _, rfl, rfl, ?_⟩
    have a := (x1.err.sub (k0 k _ (by linarith))).round' he he1 (hA.sub _ _)
    have b := (x2.err.sub (k0 k2 _ (by linarith))).round' he he1 (hA.sub _ _)
    have a' := ((flavour_err hA he he1 (by linarith) a isCall).mono
      (θ' := 2 * ν + 5 * level e) (by linarith)).weaken (B' := |Q1 * s1| + |Q2 * s2| + |k| + |k2|) (by positivity)
      (by linarith [abs_nonneg (Q2 * s2), abs_nonneg k2])
    have b' := ((flavour_err hA he he1 (by linarith) b isCall).mono
      (θ' := 2 * ν + 5 * level e) (by linarith)).weaken (B' := |Q1 * s1| + |Q2 * s2| + |k| + |k2|) (by positivity)
      (by linarith [abs_nonneg (Q1 * s1), abs_nonneg k])
    exact a'.max b'
  case reverseDual =>
    obtain ⟨k, rfl⟩ := Option.isSome_iff_exists.1 (hK (by simp))
    obtain ⟨k2, rfl⟩ := Option.isSome_iff_exists.1 (hK2 (by simp))
    refine ⟨_, _, rfl, rfl, ?_⟩
    have a := (x1.err.sub (k0 k _ (by linarith))).round' he he1 (hA.sub _ _)
    have b := ((k0 k2 _ (by linarith)).sub x2.err).round' he he1 (hA.sub _ _)
    have a' := ((flavour_err hA he he1 (by linarith) a isCall).mono
      (θ' := 2 * ν + 5 * level e) (by linarith)).weaken (B' := |Q1 * s1| + |Q2 * s2| + |k| + |k2|) (by positivity)
      (by linarith [abs_nonneg (Q2 * s2), abs_nonneg k2])
    have b' := ((flavour_err hA he he1 (by linarith) b isCall).mono
      (θ' := 2 * ν + 5 * level e) (by linarith)).weaken (B' := |Q1 * s1| + |Q2 * s2| + |k| + |k2|) (by positivity)
      (by linarith [abs_nonneg (Q1 * s1), abs_nonneg k])
    exact a'.max b'
  case portfolio =>
    obtain ⟨k, rfl⟩ := Option.isSome_iff_exists.1 (hK (by simp))
    refine ⟨_, _, rfl, rfl, ?_⟩
    have a := (x1.err.add x2.err).round' he he1 (hA.add _ _)
    have b := (a.sub (k0 k _ (by linarith))).round' he he1 (hA.sub _ _)
    refine ((flavour_err hA he he1 (by linarith) b isCall).mono (by linarith)).weaken (by positivity) ?_
    simp only [gross, Option.getD_some]; linarith [abs_nonneg (K2.getD 0)]
  case exchange =>
    refine ⟨_, _, rfl, rfl, ?_⟩
    have a := (x2.err.sub x1.err).round' he he1 (hA.sub _ _)
    refine ((flavour_err hA he he1 (by linarith) a isCall).mono (by linarith)).weaken (by positivity) ?_
    simp only [gross]; linarith [abs_nonneg (K.getD 0), abs_nonneg (K2.getD 0)]
  case outperformance =>
    obtain ⟨k, rfl⟩ := Option.isSome_iff_exists.1 (hK (by simp))
    refine ⟨_, _, rfl, rfl, ?_⟩
    have a := (((x1.div (Rel.rfl' (y := Q2))).round he he1 (hA.div _ _)).mul h2).round he he1 (hA.mul _ _)
    have b := (a.err.sub (k0 k _ (by linarith))).round' he he1 (hA.sub _ _)
    refine ((flavour_err hA he he1 (by linarith) b isCall).mono (by linarith)).weaken (by positivity) ?_
    simp only [gross, Option.getD_some]; linarith [abs_nonneg (K2.getD 0)]
  case product =>
    obtain ⟨k, rfl⟩ := Option.isSome_iff_exists.1 (hK (by simp))
    refine ⟨_, _, rfl, rfl, ?_⟩
    have a := (((x1.mul (Rel.rfl' (y := Q2))).round he he1 (hA.mul _ _)).mul h2).round he he1 (hA.mul _ _)
    have b := (a.err.sub (k0 k _ (by linarith))).round' he he1 (hA.sub _ _)
    refine ((flavour_err hA he he1 (by linarith) b isCall).mono (by linarith)).weaken (by positivity) ?_
    simp only [gross, Option.getD_some]; linarith [abs_nonneg (K2.getD 0)]

/-- Average and discounting. -/
theorem lattice_cont_err {Θ g D D' a b c d a' b' c' d' Ba Bb Bc Bd : ℝ} (hD : Rel g D' D) (hD0 : 0 ≤ D)
    (ha : Err Θ a' a Ba) (hb : Err Θ b' b Bb) (hc : Err Θ c' c Bc) (hd : Err Θ d' d Bd) :
    Err (Θ + 5 * level e + g) (Tree3dFl.cont A D' a' b' c' d') (D * ((a + b + c + d) / 4)) (D * ((Ba + Bb + Bc + Bd) / 4)) := by
  have hL := lattice_level_nonneg he he1
  have lev : -log (1 - e) = level e := rfl
  have s1 := ((ha.add hb).round' he he1 (hA.add _ _)).mono (θ' := Θ + level e) (by linarith)
  have s2 := ((s1.add (hc.mono (by linarith))).round' he he1 (hA.add _ _)).mono (θ' := Θ + 2 * level e) (by linarith)
  have s3 := ((s2.add (hd.mono (by linarith))).round' he he1 (hA.add _ _)).mono (θ' := Θ + 3 * level e) (by linarith)
  have s4 := ((Err.rfl' (y := (1 / 4 : ℝ)) (B := 1 / 4) (by norm_num)).mul s3).round' he he1 (hA.mul _ _)
  have s5 := (s4.mul hD.err).round' he he1 (hA.mul _ _)
  rw [abs_of_nonneg hD0] at s5
  have e1 : 1 / 4 * (a + b + c + d) * D = D * ((a + b + c + d) / 4) := by ring
  have e2 : 1 / 4 * (Ba + Bb + Bc + Bd) * D = D * ((Ba + Bb + Bc + Bd) / 4) := by ring
  rw [e1, e2] at s5
  exact s5.mono (by linarith)

/-- `dt` and its root. -/
theorem lattice_dt_rel (o : Opt) :
    Rel (level e) (Tree3dFl.dt A o) (o.t / o.n) ∧ Rel (2 * level e) (A.sqrt (Tree3dFl.dt A o)) √(o.t / o.n) := by
  have hL := lattice_level_nonneg he he1
  have lev : -log (1 - e) = level e := rfl
  have h1 : Rel (level e) (Tree3dFl.dt A o) (o.t / o.n) := Rel.of_round he he1 (hA.div _ _)
  refine ⟨h1, (h1.sqrt.round he he1 (z := A.sqrt (Tree3dFl.dt A o)) ?_).mono (by linarith)⟩
  rw [abs_of_nonneg (sqrt_nonneg _)]; exact hA.sqrt _

theorem lattice_mu_err (b σ : ℝ) : Err (3 * level e) (Tree3dFl.mu A b σ) (b - 0.5 * σ * σ) (|b| + σ ^ 2 / 2) := by
  have hL := lattice_level_nonneg he he1
  have lev : -log (1 - e) = level e := rfl
  have h1 : Rel (level e) (A.mul 0.5 σ) (0.5 * σ) := Rel.of_round he he1 (hA.mul _ _)
  have h2 := ((h1.mul (Rel.rfl' (y := σ))).round he he1 (hA.mul _ _)).err
  have h3 := (((Err.rfl' (y := b) le_rfl).mono (θ' := 2 * level e) (by linarith)).sub
    (h2.mono (by linarith))).round' he he1 (hA.sub _ _)
  rw [show 0.5 * σ * σ = σ ^ 2 / 2 by ring, abs_of_nonneg (by positivity : 0 ≤ σ ^ 2 / 2)] at h3
  rw [show 0.5 * σ * σ = σ ^ 2 / 2 by ring]
  exact h3.mono (by linarith)

/-- The first asset. -/
theorem lattice_node1_rel (o : Opt) (ht : 0 ≤ o.t) {m j : ℕ} (hj : j ≤ m) :
    Rel (m * ((exp (6 * level e) - 1) * ((|o.b1| + o.sigma1 ^ 2 / 2) * (o.t / o.n) + |o.sigma1| * √(o.t / o.n)) + level e)
      + 4 * level e) (Tree3dFl.node1 A o m j) (o.node1 m j) := by
  have hL := lattice_level_nonneg he he1
  have lev : -log (1 - e) = level e := rfl
  obtain ⟨h1, h2⟩ := lattice_dt_rel hA he he1 o
  have hdt : 0 ≤ o.t / o.n := by positivity
  have a := ((lattice_mu_err hA he he1 o.b1 o.sigma1).mul h1.err).round' he he1 (hA.mul _ _)
  have b := (((Rel.rfl' (y := o.sigma1)).mul h2).round he he1 (hA.mul _ _)).err
  rw [abs_of_nonneg hdt] at a
  rw [abs_mul, abs_of_nonneg (sqrt_nonneg _)] at b
  have a5 := a.mono (θ' := 5 * level e) (by linarith)
  have b5 := b.mono (θ' := 5 * level e) (by linarith)
  have up := err_rel_exp (((a5.add b5).round' he he1 (hA.add _ _)).mono (θ' := 6 * level e) (by linarith))
  have dn := err_rel_exp (((a5.sub b5).round' he he1 (hA.sub _ _)).mono (θ' := 6 * level e) (by linarith))
  set X := (|o.b1| + o.sigma1 ^ 2 / 2) * (o.t / o.n) + |o.sigma1| * √(o.t / o.n)
  have hu : Rel ((exp (6 * level e) - 1) * X + level e) (Tree3dFl.u A o) o.u :=
    (up.round he he1 (z := Tree3dFl.u A o) (by rw [abs_of_pos (exp_pos _)]; exact hA.exp _)).mono (by linarith)
  have hd : Rel ((exp (6 * level e) - 1) * X + level e) (Tree3dFl.d A o) o.d :=
    (dn.round he he1 (z := Tree3dFl.d A o) (by rw [abs_of_pos (exp_pos _)]; exact hA.exp _)).mono (by linarith)
  set c := (exp (6 * level e) - 1) * X + level e
  have p1 := (hu.pow j).round he he1 (hA.pow _ j)
  have p2 := ((Rel.rfl' (y := o.S1)).mul p1).round he he1 (hA.mul _ _)
  have p3 := (hd.pow (m - j)).round he he1 (hA.pow _ (m - j))
  have p4 := (p2.mul p3).round he he1 (hA.mul _ _)
  refine p4.mono ?_
  rw [Nat.cast_sub hj]
  linarith

/-- `sqrt(1 - rho**2)`. -/
theorem lattice_corr_rel {ρ : ℝ} (hρ : |ρ| < 1) (hc : (exp (2 * level e) - 1) * ((1 + ρ ^ 2) / (1 - ρ ^ 2)) < 1) :
    Rel (corrLevel e ρ / 2 + level e) (A.sqrt (A.sub 1 (A.pow ρ 2))) √(1 - ρ ^ 2) := by
  have hL := lattice_level_nonneg he he1
  have lev : -log (1 - e) = level e := rfl
  have hv : 0 < 1 - ρ ^ 2 := by
    have := sq_lt_one_iff_abs_lt_one ρ |>.2 hρ
    linarith
  have h1 : Rel (level e) (A.pow ρ 2) (ρ ^ 2) := Rel.of_round he he1 (hA.pow _ _)
  have h2 := (((((Err.rfl' (y := (1 : ℝ)) (B := 1) (by simp)).mono hL).sub h1.err).round' he he1
    (hA.sub _ _)).mono (θ' := 2 * level e) (by linarith)).err
  rw [abs_of_nonneg (sq_nonneg ρ)] at h2
  have h3 : |A.sub 1 (A.pow ρ 2) - (1 - ρ ^ 2)| ≤ (exp (2 * level e) - 1) * ((1 + ρ ^ 2) / (1 - ρ ^ 2)) * (1 - ρ ^ 2) := by
    refine h2.trans (le_of_eq ?_)
    field_simp
  have h0 : 0 ≤ (exp (2 * level e) - 1) * ((1 + ρ ^ 2) / (1 - ρ ^ 2)) := by
    have := one_le_exp (by linarith : 0 ≤ 2 * level e)
    exact mul_nonneg (by linarith) (by positivity)
  have h4 : Rel (corrLevel e ρ) (A.sub 1 (A.pow ρ 2)) (1 - ρ ^ 2) := Rel.of_round h0 hc (by rwa [abs_of_pos hv])
  refine (h4.sqrt.round he he1 (z := A.sqrt (A.sub 1 (A.pow ρ 2))) ?_).mono (by linarith)
  rw [abs_of_nonneg (sqrt_nonneg _)]; exact hA.sqrt _

/-- The second asset. -/
theorem lattice_node2_rel (o : Opt) (ht : 0 ≤ o.t) (hρ : |o.rho| < 1)
    (hc : (exp (2 * level e) - 1) * ((1 + o.rho ^ 2) / (1 - o.rho ^ 2)) < 1) (hω : 0 ≤ corrLevel e o.rho)
    {m j i : ℕ} (hj : j ≤ m) (hi : i ≤ m) :
    Rel (m * ((exp (7 * level e + corrLevel e o.rho) - 1)
        * ((|o.b2| + o.sigma2 ^ 2 / 2) * (o.t / o.n) + 2 * |o.sigma2| * √(o.t / o.n))) + 4 * level e)
      (Tree3dFl.node2 A o m j i) (o.node2 m j i) := by
  have hL := lattice_level_nonneg he he1
  have lev : -log (1 - e) = level e := rfl
  obtain ⟨h1, h2⟩ := lattice_dt_rel hA he he1 o
  have hdt : 0 ≤ o.t / o.n := by positivity
  have cc := lattice_corr_rel hA he he1 hρ hc
  set ω := corrLevel e o.rho
  -- drift
  have a := ((((lattice_mu_err hA he he1 o.b2 o.sigma2).mul (Err.rfl' (y := (m : ℝ)) le_rfl)).round' he he1
    (hA.mul _ _)).mul h1.err).round' he he1 (hA.mul _ _)
  rw [abs_of_nonneg hdt, Nat.abs_cast] at a
  have a6 := err_rel_exp (a.mono (θ' := 7 * level e + ω) (by linarith))
  have a7 := a6.round he he1 (z := A.exp _) (by rw [abs_of_pos (exp_pos _)]; exact hA.exp _)
  -- diffusion
  have y1 := ((Rel.rfl' (y := 2 * (j : ℝ) - m)).mul h2).round he he1 (hA.mul _ _)
  have y2 := (((Rel.rfl' (y := o.rho)).mul y1).round he he1 (hA.mul _ _)).err
  have y3 := ((((cc.mul (Rel.rfl' (y := 2 * (i : ℝ) - m))).round he he1 (hA.mul _ _)).mul h2).round he he1 (hA.mul _ _)).err
  have y4 := ((y2.mono (θ' := 5 * level e + ω) (by linarith)).add (y3.mono (by linarith))).round' he he1 (hA.add _ _)
  have y5 := ((Err.rfl' (y := o.sigma2) le_rfl).mul y4).round' he he1 (hA.mul _ _)
  have hB : |o.sigma2| * (|o.rho * ((2 * (j : ℝ) - m) * √(o.t / o.n))| + |√(1 - o.rho ^ 2) * (2 * (i : ℝ) - m) * √(o.t / o.n)|)
      ≤ m * (2 * |o.sigma2| * √(o.t / o.n)) := by
    have q : ∀ k : ℕ, k ≤ m → |2 * (k : ℝ) - m| ≤ m := by
      intro k hk
      have : (k : ℝ) ≤ m := by exact_mod_cast hk
      have : (0 : ℝ) ≤ k := Nat.cast_nonneg k
      rw [abs_le]; constructor <;> linarith
    have q1 : √(1 - o.rho ^ 2) ≤ 1 := sqrt_le_one.2 (by nlinarith [sq_nonneg o.rho])
    have q2 : |o.rho * ((2 * (j : ℝ) - m) * √(o.t / o.n))| ≤ 1 * (m * √(o.t / o.n)) := by
      rw [abs_mul, abs_mul, abs_of_nonneg (sqrt_nonneg _)]
      exact mul_le_mul hρ.le (mul_le_mul_of_nonneg_right (q j hj) (sqrt_nonneg _)) (by positivity) zero_le_one
    have q3 : |√(1 - o.rho ^ 2) * (2 * (i : ℝ) - m) * √(o.t / o.n)| ≤ 1 * m * √(o.t / o.n) := by
      rw [abs_mul, abs_mul, abs_of_nonneg (sqrt_nonneg _), abs_of_nonneg (sqrt_nonneg (o.t / o.n))]
      exact mul_le_mul_of_nonneg_right (mul_le_mul q1 (q i hi) (abs_nonneg _) zero_le_one) (sqrt_nonneg _)
    calc _ ≤ |o.sigma2| * (1 * (m * √(o.t / o.n)) + 1 * m * √(o.t / o.n)) :=
          mul_le_mul_of_nonneg_left (add_le_add q2 q3) (abs_nonneg _)
      _ = _ := by ring
  have y6 := err_rel_exp ((y5.mono (θ' := 7 * level e + ω) (by linarith)).weaken (by linarith) hB)
  have y7 := y6.round he he1 (z := A.exp _) (by rw [abs_of_pos (exp_pos _)]; exact hA.exp _)
  have p := ((((Rel.rfl' (y := o.S2)).mul a7).round he he1 (hA.mul _ _)).mul y7).round he he1 (hA.mul _ _)
  refine p.mono (le_of_eq ?_)
  rw [← lev]
  ring

/-- The backward induction. -/
theorem lattice_err {P' P G V' V W : ℕ → ℕ → ℕ → ℝ} {am : Bool} {D D' g ν : ℝ} {n : ℕ} (hν : 0 ≤ ν) (hD : Rel g D' D)
    (hD0 : 0 ≤ D) (hP : ∀ m ≤ n, ∀ j ≤ m, ∀ i ≤ m, Err ν (P' m j i) (P m j i) (G m j i))
    (hV' : IsRoundedValue A P' am D' n V') (hV : IsValue P am D n V) (hW : IsValue G am D n W) :
    ∀ k ≤ n, ∀ j ≤ n - k, ∀ i ≤ n - k,
      Err (ν + k * (5 * level e + g)) (V' (n - k) j i) (V (n - k) j i) (W (n - k) j i) := by
  have hL := lattice_level_nonneg he he1
  have hg := hD.nonneg
  intro k
  induction k with
  | zero =>
    intro _ j hj i hi
    rw [Nat.sub_zero] at *
    rw [hV'.terminal j hj i hi, hV.terminal j hj i hi, hW.terminal j hj i hi]
    exact (hP n le_rfl j hj i hi).mono (by simp)
  | succ k ih =>
    intro hk j hj i hi
    have ih' := ih (by omega)
    obtain ⟨m, hm⟩ : ∃ m, n - (k + 1) = m := ⟨_, rfl⟩
    rw [hm] at hj hi ⊢
    have hm1 : n - k = m + 1 := by omega
    rw [hm1] at ih'
    have c := lattice_cont_err hA he he1 hD hD0 (ih' j (by omega) i (by omega)) (ih' (j + 1) (by omega) i (by omega))
      (ih' j (by omega) (i + 1) (by omega)) (ih' (j + 1) (by omega) (i + 1) (by omega))
    have c' := c.mono (θ' := ν + (k + 1 : ℕ) * (5 * level e + g)) (by push_cast; linarith)
    have b1 := hV'.back m (by omega) j hj i hi
    have b2 := hV.back m (by omega) j hj i hi
    have b3 := hW.back m (by omega) j hj i hi
    simp only at b1 b2 b3
    rw [b1, b2, b3]
    cases am
    · simpa using c'
    · simp only [if_true]
      have hpos : 0 ≤ ν + (k + 1 : ℕ) * (5 * level e + g) := by positivity
      have p := (hP m (by omega) j hj i hi).mono (θ' := ν + (k + 1 : ℕ) * (5 * level e + g)) (by
        have : 0 ≤ (k + 1 : ℕ) * (5 * level e + g) := by positivity
        linarith)
      exact (c'.weaken hpos (le_max_left _ _)).max (p.weaken hpos (le_max_right _ _))

end

variable {e : ℝ} {A : Arith}

/-- **C140.** The price computed in rounded arithmetic, for every payoff, European or American: its distance from the price in
exact arithmetic is at most `exp (latticeLevel e o) - 1` times the value, in the same lattice, of the claim that pays the sum
of the absolute values of the terms of the payoff. -/
theorem C140_price (hA : Rounded e A) (he : 0 ≤ e) (he1 : e < 1) (o : Opt) (hn : o.n ≠ 0) (ht : 0 ≤ o.t) (hρ : |o.rho| < 1)
    (hs : HasStrikes o.option o.K o.K2) (hc : (exp (2 * level e) - 1) * ((1 + o.rho ^ 2) / (1 - o.rho ^ 2)) < 1)
    (isCall : Bool) {W : ℕ → ℕ → ℕ → ℝ} (hW : IsValue (fun m j i => gross o (asset1 o m j) (asset2 o m j i))
      (o.otype = "american") (exp (-o.r * (o.t / o.n))) o.n W) :
    ∃ v' v, Tree3dFl.price A o isCall = .ok v' ∧ Tree3d.price o isCall = .ok v ∧
      |v' - v| ≤ (exp (latticeLevel e o) - 1) * W 0 0 0 := by
  have hL := lattice_level_nonneg he he1
  have lev : -log (1 - e) = level e := rfl
  have hdt : 0 ≤ o.t / o.n := by positivity
  have h0 : 0 ≤ (exp (2 * level e) - 1) * ((1 + o.rho ^ 2) / (1 - o.rho ^ 2)) := by
    have := one_le_exp (by linarith : 0 ≤ 2 * level e)
    have := (sq_lt_one_iff_abs_lt_one o.rho).2 hρ
    exact mul_nonneg (by linarith) (div_nonneg (by positivity) (by linarith))
  have hω : 0 ≤ corrLevel e o.rho := lattice_level_nonneg h0 hc
  -- the assets
  have hE : exp (6 * level e) - 1 ≤ exp (7 * level e + corrLevel e o.rho) - 1 := by
    have : exp (6 * level e) ≤ exp (7 * level e + corrLevel e o.rho) := exp_le_exp.2 (by linarith)
    linarith
  have hE0 : 0 ≤ exp (6 * level e) - 1 := by linarith [one_le_exp (by linarith : 0 ≤ 6 * level e)]
  set E := exp (7 * level e + corrLevel e o.rho) - 1 with hEdef
  have hν : 0 ≤ assetLevel e o := by
    unfold assetLevel exponents
    rw [← hEdef]
    have : 0 ≤ E := hE0.trans hE
    positivity
  have hn1 : ∀ {m j : ℕ}, m ≤ o.n → j ≤ m → Rel (assetLevel e o) (Tree3dFl.node1 A o m j) (asset1 o m j) := by
    intro m j hm hj
    rw [← node1_eq o hj]
    refine (lattice_node1_rel hA he he1 o ht hj).mono ?_
    have hm' : (m : ℝ) ≤ o.n := by exact_mod_cast hm
    have x1 : (exp (6 * level e) - 1) * ((|o.b1| + o.sigma1 ^ 2 / 2) * (o.t / o.n) + |o.sigma1| * √(o.t / o.n))
        ≤ E * ((|o.b1| + |o.b2| + o.sigma1 ^ 2 / 2 + o.sigma2 ^ 2 / 2) * (o.t / o.n)
          + (|o.sigma1| + 2 * |o.sigma2|) * √(o.t / o.n)) := by
      refine mul_le_mul hE (add_le_add (mul_le_mul_of_nonneg_right ?_ hdt) (mul_le_mul_of_nonneg_right ?_ (sqrt_nonneg _)))
        (by positivity) (hE0.trans hE)
      · linarith [abs_nonneg o.b2, sq_nonneg o.sigma2]
      · linarith [abs_nonneg o.sigma2]
    have x2 := mul_le_mul hm' (add_le_add_left x1 (level e)) (by positivity) (by positivity)
    unfold assetLevel exponents
    rw [← hEdef]
    linarith
  have hn2 : ∀ {m j i : ℕ}, m ≤ o.n → j ≤ m → i ≤ m → Rel (assetLevel e o) (Tree3dFl.node2 A o m j i) (asset2 o m j i) := by
    intro m j i hm hj hi
    rw [← node2_eq o]
    refine (lattice_node2_rel hA he he1 o ht hρ hc hω hj hi).mono ?_
    have hm' : (m : ℝ) ≤ o.n := by exact_mod_cast hm
    rw [← hEdef]
    have x1 : E * ((|o.b2| + o.sigma2 ^ 2 / 2) * (o.t / o.n) + 2 * |o.sigma2| * √(o.t / o.n))
        ≤ E * ((|o.b1| + |o.b2| + o.sigma1 ^ 2 / 2 + o.sigma2 ^ 2 / 2) * (o.t / o.n)
          + (|o.sigma1| + 2 * |o.sigma2|) * √(o.t / o.n)) := by
      refine mul_le_mul_of_nonneg_left (add_le_add (mul_le_mul_of_nonneg_right ?_ hdt)
        (mul_le_mul_of_nonneg_right ?_ (sqrt_nonneg _))) (hE0.trans hE)
      · linarith [abs_nonneg o.b1, sq_nonneg o.sigma1]
      · linarith [abs_nonneg o.sigma1]
    have hE1 : 0 ≤ E := hE0.trans hE
    have x2 := mul_le_mul hm' x1 (by positivity) (by positivity)
    unfold assetLevel exponents
    rw [← hEdef]
    have : 0 ≤ o.n * level e := by positivity
    linarith
  -- the payoffs
  have ok := fun s1 s2 => payoff3d_err hA he he1 le_rfl o isCall hs (Rel.rfl' (y := s1)) (Rel.rfl' (y := s2))
  choose f' f hf' hf _ using ok
  have hP : ∀ m ≤ o.n, ∀ j ≤ m, ∀ i ≤ m, Err (2 * assetLevel e o + 5 * level e)
      (f' (Tree3dFl.node1 A o m j) (Tree3dFl.node2 A o m j i)) (f (asset1 o m j) (asset2 o m j i))
      (gross o (asset1 o m j) (asset2 o m j i)) := by
    intro m hm j hj i hi
    obtain ⟨p', p, q', q, h⟩ := payoff3d_err hA he he1 hν o isCall hs (hn1 hm hj) (hn2 hm hj hi)
    rw [hf'] at q'
    rw [hf] at q
    cases q'; cases q
    exact h
  -- the discount factor
  have hD : Rel ((exp (2 * level e) - 1) * (|o.r| * (o.t / o.n)) + level e) (A.exp (A.mul (-o.r) (Tree3dFl.dt A o)))
      (exp (-o.r * (o.t / o.n))) := by
    have a := (((Rel.rfl' (y := -o.r)).mul (lattice_dt_rel hA he he1 o).1).round he he1 (hA.mul _ _)).err
    rw [abs_mul, abs_neg, abs_of_nonneg hdt] at a
    exact ((err_rel_exp (a.mono (θ' := 2 * level e) (by linarith))).round he he1
      (z := A.exp (A.mul (-o.r) (Tree3dFl.dt A o))) (by rw [abs_of_pos (exp_pos _)]; exact hA.exp _)).mono (by linarith)
  obtain ⟨V', hV'⟩ := exists_rounded_value A (fun m j i => f' (Tree3dFl.node1 A o m j) (Tree3dFl.node2 A o m j i))
    (o.otype = "american") (A.exp (A.mul (-o.r) (Tree3dFl.dt A o))) o.n
  obtain ⟨V, hV⟩ := exists_value (fun m j i => f (asset1 o m j) (asset2 o m j i)) (o.otype = "american")
    (exp (-o.r * (o.t / o.n))) o.n
  refine ⟨V' 0 0 0, V 0 0 0, ?_, price_eq (Nat.pos_of_ne_zero hn) (fun s1 s2 => hf s1 s2) hV, ?_⟩
  · rw [Tree3dFl.price, if_neg hn]
    exact calcPrice_fl_ok (fun m _ j _ i _ => hf' _ _) hV'
  · have r := lattice_err hA he he1 (by positivity) hD (exp_pos _).le hP hV' hV hW o.n le_rfl 0 (by omega) 0 (by omega)
    rw [Nat.sub_self] at r
    refine r.err.trans (le_of_eq ?_)
    congr 3
    unfold latticeLevel
    have hn' : (o.n : ℝ) ≠ 0 := by exact_mod_cast hn
    field_simp
    ring

theorem latticeLevel_nonneg (he : 0 ≤ e) (he1 : e < 1) (o : Opt) (ht : 0 ≤ o.t) (hρ : |o.rho| < 1)
    (hc : (exp (2 * level e) - 1) * ((1 + o.rho ^ 2) / (1 - o.rho ^ 2)) < 1) : 0 ≤ latticeLevel e o := by
  have hL := lattice_level_nonneg he he1
  have h2 : 0 ≤ exp (2 * level e) - 1 := by linarith [one_le_exp (by linarith : 0 ≤ 2 * level e)]
  have hv := (sq_lt_one_iff_abs_lt_one o.rho).2 hρ
  have hω : 0 ≤ corrLevel e o.rho :=
    lattice_level_nonneg (mul_nonneg h2 (div_nonneg (by positivity) (by linarith))) hc
  have h7 : 0 ≤ exp (7 * level e + corrLevel e o.rho) - 1 := by
    linarith [one_le_exp (by linarith : 0 ≤ 7 * level e + corrLevel e o.rho)]
  unfold latticeLevel assetLevel exponents
  positivity

/-- **C140.** European options whose payoff is not a product: the bound in closed form. -/
theorem C140_european (hA : Rounded e A) (he : 0 ≤ e) (he1 : e < 1) (o : Opt) (hn : o.n ≠ 0) (ht : 0 ≤ o.t)
    (hρ : |o.rho| < 1) (hs : HasStrikes o.option o.K o.K2)
    (hc : (exp (2 * level e) - 1) * ((1 + o.rho ^ 2) / (1 - o.rho ^ 2)) < 1) (hS1 : 0 ≤ o.S1) (hS2 : 0 ≤ o.S2)
    (h8 : o.option ≠ .outperformance) (h9 : o.option ≠ .product) (hE : o.otype ≠ "american") (isCall : Bool) :
    ∃ v' v, Tree3dFl.price A o isCall = .ok v' ∧ Tree3d.price o isCall = .ok v ∧
      |v' - v| ≤ (exp (latticeLevel e o) - 1) * (|o.Q1| * o.S1 * exp ((o.b1 - o.r) * o.t)
        + |o.Q2| * o.S2 * exp ((o.b2 - o.r) * o.t) + (|o.K.getD 0| + |o.K2.getD 0|) * exp (-o.r * o.t)) := by
  obtain ⟨W, hW⟩ := exists_value (fun m j i => gross o (asset1 o m j) (asset2 o m j i)) (o.otype = "american")
    (exp (-o.r * (o.t / o.n))) o.n
  obtain ⟨v', v, h1, h2, h3⟩ := C140_price hA he he1 o hn ht hρ hs hc isCall hW
  refine ⟨v', v, h1, h2, h3.trans (mul_le_mul_of_nonneg_left ?_ ?_)⟩
  swap
  · linarith [one_le_exp (latticeLevel_nonneg he he1 o ht hρ hc)]
  simp only [hE, decide_false] at hW
  rw [value_european hW 0 (by omega) 0 le_rfl 0 le_rfl]
  simp only [Nat.sub_zero, Nat.zero_add]
  have hg : ∀ j ≤ o.n, ∀ i ≤ o.n, gross o (asset1 o o.n j) (asset2 o o.n j i)
      = asset1 { o with S1 := |o.Q1| * o.S1 } o.n j + asset2 { o with S2 := |o.Q2| * o.S2 } o.n j i
        + (|o.K.getD 0| + |o.K2.getD 0|) := by
    intro j _ i _
    have a : |o.Q1 * asset1 o o.n j| = asset1 { o with S1 := |o.Q1| * o.S1 } o.n j := by
      unfold asset1
      rw [abs_mul, abs_of_nonneg (mul_nonneg hS1 (exp_pos _).le), mul_assoc]
    have b : |o.Q2 * asset2 o o.n j i| = asset2 { o with S2 := |o.Q2| * o.S2 } o.n j i := by
      unfold asset2
      rw [abs_mul, abs_of_nonneg (mul_nonneg hS2 (exp_pos _).le), mul_assoc]
    rw [← a, ← b]
    unfold gross
    cases h : o.option <;> simp_all [add_assoc]
  have hpos := Nat.pos_of_ne_zero hn
  have hDn : exp (-o.r * (o.t / o.n)) ^ o.n = exp (-o.r * o.t) := by
    rw [← exp_nat_mul]
    congr 1
    have : (o.n : ℝ) ≠ 0 := by exact_mod_cast hn
    field_simp
  rw [average_congr _ hg, ← average_add, ← average_add, average_const]
  have a1 := average_asset1 { o with S1 := |o.Q1| * o.S1 } hpos (exp (-o.r * (o.t / o.n)))
  have a2 := average_asset2 { o with S2 := |o.Q2| * o.S2 } hpos (exp (-o.r * (o.t / o.n)))
  simp only at a1 a2
  rw [a1, a2, hDn]
  have hnr : (o.n : ℝ) ≠ 0 := by exact_mod_cast hn
  have hdt : 0 ≤ o.t / o.n := by positivity
  have c1 : cosh (o.sigma1 * √(o.t / o.n)) ^ o.n ≤ exp (o.sigma1 ^ 2 / 2 * o.t) := by
    calc _ ≤ exp ((o.sigma1 * √(o.t / o.n)) ^ 2 / 2) ^ o.n := pow_le_pow_left₀ (cosh_pos _).le (cosh_le_exp_half_sq _) _
      _ = _ := by
        rw [← exp_nat_mul, mul_pow, sq_sqrt hdt]; congr 1; field_simp
  have c2 : (cosh (o.sigma2 * o.rho * √(o.t / o.n)) * cosh (o.sigma2 * √(1 - o.rho ^ 2) * √(o.t / o.n))) ^ o.n
      ≤ exp (o.sigma2 ^ 2 / 2 * o.t) := by
    have hv : 0 ≤ 1 - o.rho ^ 2 := by
      have := (sq_lt_one_iff_abs_lt_one o.rho).2 hρ
      linarith
    calc _ ≤ (exp ((o.sigma2 * o.rho * √(o.t / o.n)) ^ 2 / 2) * exp ((o.sigma2 * √(1 - o.rho ^ 2) * √(o.t / o.n)) ^ 2 / 2)) ^ o.n :=
          pow_le_pow_left₀ (mul_nonneg (cosh_pos _).le (cosh_pos _).le)
            (mul_le_mul (cosh_le_exp_half_sq _) (cosh_le_exp_half_sq _) (cosh_pos _).le (exp_pos _).le) _
      _ = _ := by
        rw [← exp_add, ← exp_nat_mul, mul_pow, mul_pow, mul_pow, mul_pow, sq_sqrt hdt, sq_sqrt hv]; congr 1; field_simp; ring
  have d1 : exp (-o.r * o.t) * (|o.Q1| * o.S1 * exp ((o.b1 - o.sigma1 ^ 2 / 2) * o.t) * cosh (o.sigma1 * √(o.t / o.n)) ^ o.n)
      ≤ |o.Q1| * o.S1 * exp ((o.b1 - o.r) * o.t) := by
    calc _ ≤ exp (-o.r * o.t) * (|o.Q1| * o.S1 * exp ((o.b1 - o.sigma1 ^ 2 / 2) * o.t) * exp (o.sigma1 ^ 2 / 2 * o.t)) := by
          gcongr
      _ = |o.Q1| * o.S1 * (exp (-o.r * o.t) * (exp ((o.b1 - o.sigma1 ^ 2 / 2) * o.t) * exp (o.sigma1 ^ 2 / 2 * o.t))) := by ring
      _ = _ := by rw [← exp_add, ← exp_add]; congr 2; ring
  have d2 : exp (-o.r * o.t) * (|o.Q2| * o.S2 * exp ((o.b2 - o.sigma2 ^ 2 / 2) * o.t)
      * (cosh (o.sigma2 * o.rho * √(o.t / o.n)) * cosh (o.sigma2 * √(1 - o.rho ^ 2) * √(o.t / o.n))) ^ o.n)
      ≤ |o.Q2| * o.S2 * exp ((o.b2 - o.r) * o.t) := by
    calc _ ≤ exp (-o.r * o.t) * (|o.Q2| * o.S2 * exp ((o.b2 - o.sigma2 ^ 2 / 2) * o.t) * exp (o.sigma2 ^ 2 / 2 * o.t)) := by
          gcongr
      _ = |o.Q2| * o.S2 * (exp (-o.r * o.t) * (exp ((o.b2 - o.sigma2 ^ 2 / 2) * o.t) * exp (o.sigma2 ^ 2 / 2 * o.t))) := by ring
      _ = _ := by rw [← exp_add, ← exp_add]; congr 2; ring
  linarith

private theorem lattice_level_le (he : 0 ≤ e) (he2 : e ≤ 1 / 2) : level e ≤ 2 * e := by
  unfold level
  have h1 : (0 : ℝ) < 1 - e := by linarith
  have := one_sub_inv_le_log_of_pos h1
  have h2 : (1 - e)⁻¹ ≤ 1 + 2 * e := by
    rw [inv_le_comm₀ h1 (by linarith), ← one_div, div_le_iff₀ (by linarith)]; nlinarith
  linarith

/-- The level in double precision. -/
theorem lattice_double (he : 0 ≤ e) (he1 : e ≤ 2⁻¹ ^ 53) (o : Opt) (hρ : |o.rho| ≤ 0.98) (hn : o.n ≤ 10 ^ 4) (ht : 0 ≤ o.t)
    (hx : exponents o ≤ 1000) (hr : |o.r| * o.t ≤ 10) :
    (exp (2 * level e) - 1) * ((1 + o.rho ^ 2) / (1 - o.rho ^ 2)) < 1 ∧ exp (latticeLevel e o) - 1 ≤ 1e-9 := by
  have he53 : e ≤ 1.2e-16 := he1.trans (by norm_num)
  have hl := lattice_level_le he (by linarith)
  have hl0 := lattice_level_nonneg he (by linarith : e < 1)
  have hL : level e ≤ 2.4e-16 := by linarith
  have ex : ∀ x : ℝ, 0 ≤ x → x ≤ 1 / 2 → exp x - 1 ≤ 2 * x ∧ 0 ≤ exp x - 1 := fun x h0 h1 =>
    ⟨by simpa [abs_of_nonneg h0] using exp_sub_one_le h1, by linarith [one_le_exp h0]⟩
  obtain ⟨h2, h2n⟩ := ex (2 * level e) (by linarith) (by linarith)
  have hρ2 : o.rho ^ 2 ≤ 0.9604 := by
    have := mul_self_le_mul_self (abs_nonneg _) hρ
    rw [abs_mul_abs_self] at this
    rw [sq]; linarith
  have hκ : (1 + o.rho ^ 2) / (1 - o.rho ^ 2) ≤ 50 := by rw [div_le_iff₀ (by linarith)]; linarith
  have hκ0 : 0 ≤ (1 + o.rho ^ 2) / (1 - o.rho ^ 2) := div_nonneg (by positivity) (by linarith)
  have hδ : (exp (2 * level e) - 1) * ((1 + o.rho ^ 2) / (1 - o.rho ^ 2)) ≤ 4.8e-14 := by
    calc _ ≤ (9.6e-16 : ℝ) * 50 := mul_le_mul (by linarith) hκ hκ0 (by norm_num)
      _ = _ := by norm_num
  have hδ0 := mul_nonneg h2n hκ0
  refine ⟨by linarith, ?_⟩
  have hω : corrLevel e o.rho ≤ 9.6e-14 := (lattice_level_le hδ0 (by linarith)).trans (by linarith)
  have hω0 : 0 ≤ corrLevel e o.rho := lattice_level_nonneg hδ0 (by linarith)
  obtain ⟨h7, h7n⟩ := ex (7 * level e + corrLevel e o.rho) (by linarith) (by linarith)
  have hx0 : 0 ≤ exponents o := by unfold exponents; positivity
  have k1 : (exp (7 * level e + corrLevel e o.rho) - 1) * exponents o ≤ 2e-13 * 1000 :=
    mul_le_mul (by linarith) hx hx0 (by norm_num)
  have hn' : (o.n : ℝ) ≤ 10 ^ 4 := by exact_mod_cast hn
  have k2 : o.n * level e ≤ 10 ^ 4 * 2.4e-16 := mul_le_mul hn' hL hl0 (by norm_num)
  have k3 : (exp (2 * level e) - 1) * (|o.r| * o.t) ≤ 9.6e-16 * 10 := mul_le_mul (by linarith) hr (by positivity) (by norm_num)
  have k4 : latticeLevel e o ≤ 4.5e-10 := by
    unfold latticeLevel assetLevel
    nlinarith
  have k5 := latticeLevel_nonneg he (by linarith : e < 1) o ht (by linarith) (by linarith)
  obtain ⟨h9, -⟩ := ex (latticeLevel e o) k5 (by linarith)
  linarith

/-- **C140.** In double precision, with at most `10 000` steps, correlations up to `0.98` and exponents of total size up to
`1000`, the price is off by at most `10⁻⁹` of the value of the gross payoff. -/
theorem C140_double (hA : Rounded e A) (he : 0 ≤ e) (he1 : e ≤ 2⁻¹ ^ 53) (o : Opt) (hρ : |o.rho| ≤ 0.98) (hn : o.n ≠ 0)
    (hn4 : o.n ≤ 10 ^ 4) (ht : 0 ≤ o.t) (hx : exponents o ≤ 1000) (hr : |o.r| * o.t ≤ 10) (hs : HasStrikes o.option o.K o.K2)
    (isCall : Bool) {W : ℕ → ℕ → ℕ → ℝ} (hW : IsValue (fun m j i => gross o (asset1 o m j) (asset2 o m j i))
      (o.otype = "american") (exp (-o.r * (o.t / o.n))) o.n W) :
    ∃ v' v, Tree3dFl.price A o isCall = .ok v' ∧ Tree3d.price o isCall = .ok v ∧ |v' - v| ≤ 1e-9 * W 0 0 0 := by
  obtain ⟨hc, hl⟩ := lattice_double he he1 o hρ hn4 ht hx hr
  have he2 : e < 1 := lt_of_le_of_lt he1 (by norm_num)
  obtain ⟨v', v, h1, h2, h3⟩ := C140_price hA he he2 o hn ht (by linarith) hs hc isCall hW
  refine ⟨v', v, h1, h2, h3.trans (mul_le_mul_of_nonneg_right hl ?_)⟩
  have hW0 : ∀ m ≤ o.n, ∀ j ≤ m, ∀ i ≤ m, 0 ≤ W m j i := by
    have hZ : IsValue (fun _ _ _ => (0 : ℝ)) (o.otype = "american") (exp (-o.r * (o.t / o.n))) o.n (fun _ _ _ => 0) :=
      ⟨fun _ _ _ _ => rfl, fun _ _ _ _ _ _ => by simp⟩
    refine value_mono hZ hW (exp_pos _).le fun m _ j _ i _ => ?_
    unfold gross; split <;> positivity
  exact hW0 0 (by omega) 0 le_rfl 0 le_rfl

/-- C140, a case: the worked option of `Props/Tree3d`, with 100 steps, in a biased arithmetic that is not exact. The European
call and put are computed to `10⁻⁶`, the American ones to `10⁻⁹` of the gross value. -/
theorem C140_example :
    Rounded (2⁻¹ ^ 53) (skew (2⁻¹ ^ 53)) ∧ (skew (2⁻¹ ^ 53)).add 1 1 ≠ 2 ∧
    (∀ isCall, ∃ v' v, Tree3dFl.price (skew (2⁻¹ ^ 53)) (exampleSpread "european") isCall = .ok v' ∧
      Tree3d.price (exampleSpread "european") isCall = .ok v ∧ |v' - v| ≤ 1e-6) ∧
    (∀ isCall, ∃ W, IsValue (fun m j i => gross (exampleSpread "american") (asset1 (exampleSpread "american") m j)
        (asset2 (exampleSpread "american") m j i)) true (exp (-(1 / 10) * (1 / 10 / (100 : ℕ)))) 100 W ∧
      ∃ v' v, Tree3dFl.price (skew (2⁻¹ ^ 53)) (exampleSpread "american") isCall = .ok v' ∧
        Tree3d.price (exampleSpread "american") isCall = .ok v ∧ |v' - v| ≤ 1e-9 * W 0 0 0) := by
  have hA := skew_rounded (e := 2⁻¹ ^ 53) (by positivity)
  have hx : ∀ ty, exponents (exampleSpread ty) ≤ 1000 := by
    intro ty
    have : √((1 / 10 : ℝ) / (100 : ℕ)) ≤ 1 := sqrt_le_one.2 (by norm_num)
    unfold exponents exampleSpread
    simp only
    rw [abs_zero, abs_of_pos (by norm_num : (0 : ℝ) < 1 / 5)]
    push_cast at this ⊢
    nlinarith
  have hρ : ∀ ty, |(exampleSpread ty).rho| ≤ 0.98 := fun ty => by
    simp only [exampleSpread]; rw [abs_of_neg (by norm_num)]; norm_num
  have hr : ∀ ty, |(exampleSpread ty).r| * (exampleSpread ty).t ≤ 10 := fun ty => by
    simp only [exampleSpread]; rw [abs_of_pos (by norm_num)]; norm_num
  have hs : ∀ ty, HasStrikes (exampleSpread ty).option (exampleSpread ty).K (exampleSpread ty).K2 := fun ty => by
    simp [HasStrikes, exampleSpread]
  refine ⟨hA, by simp only [skew]; norm_num, fun isCall => ?_, fun isCall => ?_⟩
  · obtain ⟨hc, hl⟩ := lattice_double (e := 2⁻¹ ^ 53) (by positivity) le_rfl (exampleSpread "european") (hρ _)
      (by simp [exampleSpread]) (by simp [exampleSpread]) (hx _) (hr _)
    obtain ⟨v', v, h1, h2, h3⟩ := C140_european hA (by positivity) (by norm_num) (exampleSpread "european")
      (by simp [exampleSpread]) (by simp [exampleSpread]) (lt_of_le_of_lt (hρ _) (by norm_num)) (hs _) hc
      (by simp [exampleSpread]) (by simp [exampleSpread]) (by simp [exampleSpread]) (by simp [exampleSpread])
      (by simp [exampleSpread]) isCall
    refine ⟨v', v, h1, h2, h3.trans ?_⟩
    have hb : ∀ x : ℝ, x ≤ 0 → exp x ≤ 1 := fun x hx => exp_le_one_iff.2 hx
    have w : |(exampleSpread "european").Q1| * (exampleSpread "european").S1
          * exp (((exampleSpread "european").b1 - (exampleSpread "european").r) * (exampleSpread "european").t)
        + |(exampleSpread "european").Q2| * (exampleSpread "european").S2
          * exp (((exampleSpread "european").b2 - (exampleSpread "european").r) * (exampleSpread "european").t)
        + (|(exampleSpread "european").K.getD 0| + |(exampleSpread "european").K2.getD 0|)
          * exp (-(exampleSpread "european").r * (exampleSpread "european").t) ≤ 245 := by
      have b1 := hb ((0 - 1 / 10) * (1 / 10)) (by norm_num)
      have b2 := hb (-(1 / 10) * (1 / 10)) (by norm_num)
      simp only [exampleSpread, Option.getD_some, Option.getD_none, abs_one, abs_zero]
      rw [abs_of_pos (by norm_num : (0 : ℝ) < 3)]
      linarith
    have w0 : 0 ≤ exp (latticeLevel (2⁻¹ ^ 53) (exampleSpread "european")) - 1 := by
      have := latticeLevel_nonneg (e := 2⁻¹ ^ 53) (by positivity) (by norm_num) (exampleSpread "european")
        (by simp [exampleSpread]) (lt_of_le_of_lt (hρ _) (by norm_num)) hc
      linarith [one_le_exp this]
    calc _ ≤ (1e-9 : ℝ) * 245 := mul_le_mul hl w (by simp only [exampleSpread]; positivity) (by norm_num)
      _ ≤ _ := by norm_num
  · obtain ⟨W, hW⟩ := exists_value (fun m j i => gross (exampleSpread "american") (asset1 (exampleSpread "american") m j)
        (asset2 (exampleSpread "american") m j i)) true (exp (-(1 / 10) * (1 / 10 / (100 : ℕ)))) 100
    refine ⟨W, hW, C140_double hA (by positivity) le_rfl (exampleSpread "american") (hρ _) (by simp [exampleSpread])
      (by simp [exampleSpread]) (by simp [exampleSpread]) (hx _) (hr _) (hs _) isCall (by simpa [exampleSpread] using hW)⟩

end Verif.Props
