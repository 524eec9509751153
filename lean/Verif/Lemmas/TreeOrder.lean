import Verif.Lemmas.TreeVal
import Mathlib.Data.Real.Basic

/-!
Duality of lattice values under a change of numeraire, and comparison of lattices through one-step operators.
-/
namespace Verif
open Spec _root_.Verif.Tree

/-! ### Duality -/

section Dual
variable {R : Type} [Field R] [LinearOrder R] [IsStrictOrderedRing R]

theorem payoff_dual (isCall : Bool) {x : R} (hx : 0 < x) (S K : R) :
    payoff isCall (S * x) K = x * payoff (!isCall) (K * x⁻¹) S := by
  have e : x * (K * x⁻¹) = K := by rw [mul_comm, mul_assoc, inv_mul_cancel₀ hx.ne', mul_one]
  cases isCall <;> simp only [payoff, Bool.not_true, Bool.not_false, Bool.false_eq_true, if_false, if_true] <;>
    rw [mul_max_of_nonneg _ _ hx.le, mul_zero, mul_sub, e, mul_comm x S]

theorem intrinsic_dual (isCall : Bool) {x : R} (hx : 0 < x) (S K : R) :
    intrinsic isCall (S * x) K = x * intrinsic (!isCall) (K * x⁻¹) S := by
  have e : x * (K * x⁻¹) = K := by rw [mul_comm, mul_assoc, inv_mul_cancel₀ hx.ne', mul_one]
  cases isCall <;> simp only [intrinsic, Bool.not_true, Bool.not_false, Bool.false_eq_true, if_false, if_true] <;>
    rw [mul_sub, e, mul_comm x S]

/-- Call on `(S, K)` and put on `(K, S)`. -/
theorem val_dual {am isCall : Bool} {S K u p D p' D' : R} (hu : 0 < u) {n : ℕ} {V W : ℕ → ℕ → R}
    (h1 : D * (p * u) = D' * (1 - p')) (h2 : D * ((1 - p) * u⁻¹) = D' * p')
    (hV : IsVal am isCall S K u u⁻¹ p D n V) (hW : IsVal am (!isCall) K S u u⁻¹ p' D' n W) :
    ∀ j ≤ n, ∀ k ≤ j, V j k = u ^ k * u⁻¹ ^ (j - k) * W j (j - k) := by
  have hx : ∀ j k : ℕ, 0 < u ^ k * u⁻¹ ^ (j - k) := fun j k => by positivity
  have hnode : ∀ j k : ℕ, k ≤ j → node K u u⁻¹ j (j - k) = K * (u ^ k * u⁻¹ ^ (j - k))⁻¹ := by
    intro j k hk
    rw [node, Nat.sub_sub_self hk, mul_inv, inv_pow, inv_pow, inv_inv, mul_assoc, mul_comm (u ^ (j - k))]
  have hnode' : ∀ j k : ℕ, node S u u⁻¹ j k = S * (u ^ k * u⁻¹ ^ (j - k)) := fun j k => by rw [node, mul_assoc]
  refine level_induction (fun k hk => ?_) (fun j hj ih k hk => ?_)
  · rw [hV.terminal k hk, hW.terminal _ (by omega), hnode _ _ hk, hnode', payoff_dual _ (hx _ _)]
  · have a1 := ih (k + 1) (by omega)
    have a2 := ih k (by omega)
    rw [show j + 1 - (k + 1) = j - k by omega] at a1
    rw [show j + 1 - k = j - k + 1 by omega] at a2
    have hc : D * (p * V (j + 1) (k + 1) + (1 - p) * V (j + 1) k)
        = u ^ k * u⁻¹ ^ (j - k) * (D' * (p' * W (j + 1) (j - k + 1) + (1 - p') * W (j + 1) (j - k))) := by
      rw [a1, a2, pow_succ u k, pow_succ u⁻¹ (j - k)]
      linear_combination (u ^ k * u⁻¹ ^ (j - k) * W (j + 1) (j - k)) * h1
        + (u ^ k * u⁻¹ ^ (j - k) * W (j + 1) (j - k + 1)) * h2
    rw [hV.back j hj k hk, hW.back j hj _ (by omega), hc, hnode _ _ hk, hnode', intrinsic_dual _ (hx _ _)]
    cases am
    · rfl
    · simp only [if_true]
      rw [mul_max_of_nonneg _ _ (hx _ _).le]

/-- The same for American values on the trinomial lattice. -/
theorem american3_dual {isCall : Bool} {S K a q D q' D' : R} (ha : 0 < a) {n : ℕ} {V W : ℕ → ℕ → R}
    (h1 : D * (q * a) = D' * (1 - q')) (h2 : D * ((1 - q) * a⁻¹) = D' * q')
    (hV : IsAmerican3 isCall S K (a ^ 2) (a⁻¹ ^ 2) (q ^ 2) (2 * q * (1 - q)) ((1 - q) ^ 2) (D ^ 2) n V)
    (hW : IsAmerican3 (!isCall) K S (a ^ 2) (a⁻¹ ^ 2) (q' ^ 2) (2 * q' * (1 - q')) ((1 - q') ^ 2) (D' ^ 2) n W) :
    ∀ j ≤ n, ∀ i ≤ 2 * j, V j i = a ^ i * a⁻¹ ^ (2 * j - i) * W j (2 * j - i) := by
  have hx : ∀ j k : ℕ, 0 < a ^ k * a⁻¹ ^ (2 * j - k) := fun j k => by positivity
  have hn3 : ∀ (S : R) (j i : ℕ), i ≤ 2 * j → node3 S (a ^ 2) (a⁻¹ ^ 2) j i = S * (a ^ i * a⁻¹ ^ (2 * j - i)) := by
    intro S j i hi
    rw [node3, ← pow_mul, ← pow_mul, mul_assoc]
    congr 1
    rcases le_total i j with h | h
    · obtain ⟨c, rfl⟩ := Nat.exists_eq_add_of_le h
      rw [show i - (i + c) = 0 by omega, show i + c - i = c by omega, show 2 * (i + c) - i = i + 2 * c by omega,
        pow_add, mul_zero, pow_zero, one_mul, ← mul_assoc, ← mul_pow, mul_inv_cancel₀ ha.ne', one_pow, one_mul]
    · obtain ⟨c, rfl⟩ := Nat.exists_eq_add_of_le h
      have hc : c ≤ j := by omega
      rw [show j + c - j = c by omega, show j - (j + c) = 0 by omega, show 2 * j - (j + c) = j - c by omega,
        mul_zero, pow_zero, mul_one, show j + c = 2 * c + (j - c) by omega, pow_add, mul_assoc, ← mul_pow,
        mul_inv_cancel₀ ha.ne', one_pow, mul_one]
  have hinv : ∀ j i : ℕ, i ≤ 2 * j → a ^ (2 * j - i) * a⁻¹ ^ (2 * j - (2 * j - i)) = (a ^ i * a⁻¹ ^ (2 * j - i))⁻¹ := by
    intro j i hi
    rw [Nat.sub_sub_self hi, mul_inv, inv_pow, inv_pow, inv_inv, mul_comm]
  refine level_induction (fun i hi => ?_) (fun j hj ih i hi => ?_)
  · rw [hV.terminal i hi, hW.terminal _ (by omega), hn3 S _ _ hi, hn3 K _ _ (by omega), hinv _ _ hi, payoff_dual _ (hx _ _)]
  · have a1 := ih (i + 2) (by omega)
    have a2 := ih (i + 1) (by omega)
    have a3 := ih i (by omega)
    rw [show 2 * (j + 1) - (i + 2) = 2 * j - i by omega] at a1
    rw [show 2 * (j + 1) - (i + 1) = 2 * j - i + 1 by omega] at a2
    rw [show 2 * (j + 1) - i = 2 * j - i + 2 by omega] at a3
    have e0 : a * a⁻¹ = 1 := mul_inv_cancel₀ ha.ne'
    have hc : D ^ 2 * (q ^ 2 * V (j + 1) (i + 2) + 2 * q * (1 - q) * V (j + 1) (i + 1) + (1 - q) ^ 2 * V (j + 1) i)
        = a ^ i * a⁻¹ ^ (2 * j - i) * (D' ^ 2 * (q' ^ 2 * W (j + 1) (2 * j - i + 2)
          + 2 * q' * (1 - q') * W (j + 1) (2 * j - i + 1) + (1 - q') ^ 2 * W (j + 1) (2 * j - i))) := by
      have k1 : D ^ 2 * (q ^ 2 * a ^ 2) = D' ^ 2 * (1 - q') ^ 2 := by
        linear_combination (D * (q * a) + D' * (1 - q')) * h1
      have k2 : D ^ 2 * ((1 - q) ^ 2 * a⁻¹ ^ 2) = D' ^ 2 * q' ^ 2 := by
        linear_combination (D * ((1 - q) * a⁻¹) + D' * q') * h2
      have k3 : D ^ 2 * (2 * q * (1 - q) * (a * a⁻¹)) = D' ^ 2 * (2 * q' * (1 - q')) := by
        linear_combination 2 * (D * ((1 - q) * a⁻¹)) * h1 + 2 * (D' * (1 - q')) * h2
      rw [a1, a2, a3, pow_add a i 2, pow_add a i 1, pow_add a⁻¹ _ 2, pow_add a⁻¹ _ 1]
      linear_combination (a ^ i * a⁻¹ ^ (2 * j - i) * W (j + 1) (2 * j - i)) * k1
        + (a ^ i * a⁻¹ ^ (2 * j - i) * W (j + 1) (2 * j - i + 2)) * k2
        + (a ^ i * a⁻¹ ^ (2 * j - i) * W (j + 1) (2 * j - i + 1)) * k3
    rw [hV.back j hj i hi, hW.back j hj _ (by omega), hc, hn3 S _ _ hi, hn3 K _ _ (by omega), hinv _ _ hi,
      intrinsic_dual _ (hx _ _), mul_max_of_nonneg _ _ (hx _ _).le]

end Dual

/-! ### Value functions and one-step operators -/

/-- Value with `m` periods left, as a function of the underlying, for a one-period valuation operator `T`. -/
noncomputable def vf (am isCall : Bool) (K : ℝ) (T : (ℝ → ℝ) → ℝ → ℝ) : ℕ → ℝ → ℝ
  | 0, s => payoff isCall s K
  | m + 1, s => if am then max (intrinsic isCall s K) (T (vf am isCall K T m) s) else T (vf am isCall K T m) s

/-- Discounted average over an up and a down move. -/
def binOp (D p u d : ℝ) (f : ℝ → ℝ) (s : ℝ) : ℝ := D * (p * f (s * u) + (1 - p) * f (s * d))

/-- Convexity on the whole line. -/
def Cvx (f : ℝ → ℝ) : Prop :=
  ∀ x y a b : ℝ, 0 ≤ a → 0 ≤ b → a + b = 1 → f (a * x + b * y) ≤ a * f x + b * f y

theorem Cvx.sup {f g : ℝ → ℝ} (hf : Cvx f) (hg : Cvx g) : Cvx fun s => max (f s) (g s) := by
  intro x y a b ha hb hab
  refine max_le ((hf x y a b ha hb hab).trans ?_) ((hg x y a b ha hb hab).trans ?_)
  · exact add_le_add (mul_le_mul_of_nonneg_left (le_max_left _ _) ha) (mul_le_mul_of_nonneg_left (le_max_left _ _) hb)
  · exact add_le_add (mul_le_mul_of_nonneg_left (le_max_right _ _) ha) (mul_le_mul_of_nonneg_left (le_max_right _ _) hb)

theorem cvx_affine (c e : ℝ) : Cvx fun s => c * s + e := by
  intro x y a b _ _ hab
  refine le_of_eq ?_
  linear_combination -e * hab

/-- Monotone and convexity preserving. -/
structure GoodOp (T : (ℝ → ℝ) → ℝ → ℝ) : Prop where
  mono : ∀ f g, (∀ s, f s ≤ g s) → ∀ s, T f s ≤ T g s
  convex : ∀ f, Cvx f → Cvx (T f)

theorem GoodOp.comp {T T' : (ℝ → ℝ) → ℝ → ℝ} (h : GoodOp T) (h' : GoodOp T') : GoodOp fun f => T (T' f) :=
  ⟨fun f g hfg => h.mono _ _ (h'.mono f g hfg), fun f hf => h.convex _ (h'.convex f hf)⟩

theorem goodOp_bin {D p : ℝ} (hD : 0 ≤ D) (h0 : 0 ≤ p) (h1 : p ≤ 1) (u d : ℝ) : GoodOp (binOp D p u d) := by
  have hq : 0 ≤ 1 - p := by linarith
  refine ⟨fun f g hfg s => ?_, fun f hf => ?_⟩
  · unfold binOp
    have := hfg (s * u)
    have := hfg (s * d)
    gcongr
  · intro x y a b ha hb hab
    have hs : ∀ c : ℝ, f ((a * x + b * y) * c) ≤ a * f (x * c) + b * f (y * c) := fun c => by
      rw [show (a * x + b * y) * c = a * (x * c) + b * (y * c) by ring]
      exact hf _ _ a b ha hb hab
    unfold binOp
    calc D * (p * f ((a * x + b * y) * u) + (1 - p) * f ((a * x + b * y) * d))
        ≤ D * (p * (a * f (x * u) + b * f (y * u)) + (1 - p) * (a * f (x * d) + b * f (y * d))) := by
          have := hs u
          have := hs d
          gcongr
      _ = _ := by ring

theorem intrinsic_convex (isCall : Bool) (K : ℝ) : Cvx fun s => intrinsic isCall s K := by
  cases isCall
  · convert cvx_affine (-1) K using 2
    simp [intrinsic]; ring
  · convert cvx_affine 1 (-K) using 2
    simp [intrinsic]; ring

theorem payoff_convex (isCall : Bool) (K : ℝ) : Cvx fun s => payoff isCall s K := by
  have h := (intrinsic_convex isCall K).sup (g := fun _ => 0) (by simpa using cvx_affine 0 0)
  simpa only [payoff_eq] using h

theorem vf_convex {T : (ℝ → ℝ) → ℝ → ℝ} (hT : GoodOp T) (am isCall : Bool) (K : ℝ) (m : ℕ) :
    Cvx (vf am isCall K T m) := by
  induction m with
  | zero => exact payoff_convex isCall K
  | succ m ih =>
    cases am
    · have := hT.convex _ ih
      simpa [vf] using this
    · have := (intrinsic_convex isCall K).sup (hT.convex _ ih)
      simpa [vf] using this

/-- If one operator dominates another on convex functions, so do the value functions. -/
theorem vf_le {T T' : (ℝ → ℝ) → ℝ → ℝ} (hT : GoodOp T) (hT' : GoodOp T')
    (hle : ∀ f, Cvx f → ∀ s, T f s ≤ T' f s) (am isCall : Bool) (K : ℝ) (m : ℕ) :
    ∀ s, vf am isCall K T m s ≤ vf am isCall K T' m s := by
  induction m with
  | zero => exact fun s => le_rfl
  | succ m ih =>
    intro s
    have := (hT.mono _ _ ih s).trans (hle _ (vf_convex hT' am isCall K m) s)
    cases am
    · simpa [vf] using this
    · simp only [vf, if_true]
      exact max_le_max le_rfl this

theorem comp_le {T T' : (ℝ → ℝ) → ℝ → ℝ} (hT : GoodOp T) (hT' : GoodOp T')
    (hle : ∀ f, Cvx f → ∀ s, T f s ≤ T' f s) :
    ∀ f, Cvx f → ∀ s, T (T f) s ≤ T' (T' f) s :=
  fun f hf s => (hT.mono _ _ (hle f hf) s).trans (hle _ (hT'.convex f hf) s)

/-- American values grow with the number of periods left. -/
theorem vf_american_succ {T : (ℝ → ℝ) → ℝ → ℝ} (hT : GoodOp T) (h0 : ∀ f, (∀ s, 0 ≤ f s) → ∀ s, 0 ≤ T f s)
    (isCall : Bool) (K : ℝ) (m : ℕ) : ∀ s, vf true isCall K T m s ≤ vf true isCall K T (m + 1) s := by
  induction m with
  | zero =>
    intro s
    simp only [vf, if_true]
    have := h0 (fun s => payoff isCall s K) (fun s => by cases isCall <;> simp [payoff]) s
    rw [payoff_eq]
    exact max_le_max le_rfl this
  | succ m ih =>
    intro s
    rw [vf, vf]
    simp only [if_true]
    exact max_le_max le_rfl (hT.mono _ _ ih s)

/-- Two-point laws with the same mean: the more spread one gives larger averages of convex functions. -/
theorem spread_le {f : ℝ → ℝ} (hf : Cvx f) {D p u d p' u' d' : ℝ} (hD : 0 ≤ D) (h0 : 0 ≤ p) (h1 : p ≤ 1)
    (hd : d' ≤ d) (hdu : d ≤ u) (hu : u ≤ u') (hlt : d' < u')
    (hm : p * u + (1 - p) * d = p' * u' + (1 - p') * d') (s : ℝ) :
    binOp D p u d f s ≤ binOp D p' u' d' f s := by
  have hpos : 0 < u' - d' := by linarith
  have chord : ∀ x, d' ≤ x → x ≤ u' → f (s * x) ≤ (x - d') / (u' - d') * f (s * u') + (1 - (x - d') / (u' - d')) * f (s * d') := by
    intro x hx hx'
    have := hf (s * u') (s * d') ((x - d') / (u' - d')) (1 - (x - d') / (u' - d')) (div_nonneg (by linarith) hpos.le)
      (by rw [sub_nonneg, div_le_one hpos]; linarith) (by ring)
    refine le_trans (le_of_eq ?_) this
    congr 1
    field_simp
    ring
  have c1 := chord u (by linarith) hu
  have c2 := chord d hd (by linarith)
  have hq : 0 ≤ 1 - p := by linarith
  unfold binOp
  refine mul_le_mul_of_nonneg_left ?_ hD
  have hp' : p * ((u - d') / (u' - d')) + (1 - p) * ((d - d') / (u' - d')) = p' := by
    field_simp
    linarith
  calc p * f (s * u) + (1 - p) * f (s * d)
      ≤ p * ((u - d') / (u' - d') * f (s * u') + (1 - (u - d') / (u' - d')) * f (s * d'))
        + (1 - p) * ((d - d') / (u' - d') * f (s * u') + (1 - (d - d') / (u' - d')) * f (s * d')) := by gcongr
    _ = _ := by rw [← hp']; ring

theorem vf_val {am isCall : Bool} {S K u d p D : ℝ} {n : ℕ} {V : ℕ → ℕ → ℝ} (hV : IsVal am isCall S K u d p D n V) :
    ∀ j ≤ n, ∀ k ≤ j, V j k = vf am isCall K (binOp D p u d) (n - j) (node S u d j k) := by
  refine level_induction (fun k hk => ?_) (fun j hj ih k hk => ?_)
  · rw [hV.terminal k hk, Nat.sub_self]; rfl
  · obtain ⟨m, hm⟩ : ∃ m, n - j = m + 1 := ⟨n - j - 1, by omega⟩
    have h1 : n - (j + 1) = m := by omega
    have e1 : node S u d (j + 1) (k + 1) = node S u d j k * u := by
      rw [node, node, show j + 1 - (k + 1) = j - k by omega]; ring
    have e2 : node S u d (j + 1) k = node S u d j k * d := by
      rw [node, node, show j + 1 - k = j - k + 1 by omega]; ring
    rw [hV.back j hj k hk, hm, ih (k + 1) (by omega), ih k (by omega), h1, e1, e2]
    rfl

theorem vf_american3 {isCall : Bool} {S K a q D : ℝ} (ha : 0 < a) {n : ℕ} {V : ℕ → ℕ → ℝ}
    (hV : IsAmerican3 isCall S K (a ^ 2) (a⁻¹ ^ 2) (q ^ 2) (2 * q * (1 - q)) ((1 - q) ^ 2) (D ^ 2) n V) :
    ∀ j ≤ n, ∀ i ≤ 2 * j, V j i = vf true isCall K (fun f => binOp D q a a⁻¹ (binOp D q a a⁻¹ f)) (n - j)
      (node3 S (a ^ 2) (a⁻¹ ^ 2) j i) := by
  have hs : ∀ j i : ℕ, i ≤ 2 * j → node3 S (a ^ 2) (a⁻¹ ^ 2) j i = S * (a ^ i * a⁻¹ ^ (2 * j - i)) := by
    intro j i hi
    rw [node3, ← pow_mul, ← pow_mul, mul_assoc]
    congr 1
    rcases le_total i j with h | h
    · obtain ⟨c, rfl⟩ := Nat.exists_eq_add_of_le h
      rw [show i - (i + c) = 0 by omega, show i + c - i = c by omega, show 2 * (i + c) - i = i + 2 * c by omega,
        pow_add, mul_zero, pow_zero, one_mul, ← mul_assoc, ← mul_pow, mul_inv_cancel₀ ha.ne', one_pow, one_mul]
    · obtain ⟨c, rfl⟩ := Nat.exists_eq_add_of_le h
      have hc : c ≤ j := by omega
      rw [show j + c - j = c by omega, show j - (j + c) = 0 by omega, show 2 * j - (j + c) = j - c by omega,
        mul_zero, pow_zero, mul_one, show j + c = 2 * c + (j - c) by omega, pow_add, mul_assoc, ← mul_pow,
        mul_inv_cancel₀ ha.ne', one_pow, mul_one]
  refine level_induction (fun k hk => ?_) (fun j hj ih k hk => ?_)
  · rw [hV.terminal k hk, Nat.sub_self]; rfl
  · obtain ⟨m, hm⟩ : ∃ m, n - j = m + 1 := ⟨n - j - 1, by omega⟩
    have h1 : n - (j + 1) = m := by omega
    have ha1 : a * a⁻¹ = 1 := mul_inv_cancel₀ ha.ne'
    set x := node3 S (a ^ 2) (a⁻¹ ^ 2) j k with hx
    rw [hs j k hk] at hx
    have e1 : node3 S (a ^ 2) (a⁻¹ ^ 2) (j + 1) (k + 2) = x * a * a := by
      rw [hs _ _ (by omega), hx, show 2 * (j + 1) - (k + 2) = 2 * j - k by omega]; ring
    have e2 : node3 S (a ^ 2) (a⁻¹ ^ 2) (j + 1) (k + 1) = x * a * a⁻¹ := by
      rw [hs _ _ (by omega), hx, show 2 * (j + 1) - (k + 1) = 2 * j - k + 1 by omega]; ring
    have e3 : node3 S (a ^ 2) (a⁻¹ ^ 2) (j + 1) k = x * a⁻¹ * a⁻¹ := by
      rw [hs _ _ (by omega), hx, show 2 * (j + 1) - k = 2 * j - k + 2 by omega]; ring
    rw [hV.back j hj k hk, hm, ih (k + 2) (by omega), ih (k + 1) (by omega), ih k (by omega), h1, e1, e2, e3]
    simp only [vf, if_true, binOp]
    congr 1
    rw [show x * a⁻¹ * a = x * a * a⁻¹ by ring]
    ring

end Verif
