import Verif.Lemmas.Tree

/-! European and American lattice values treated together; order properties by backward induction. -/
set_option linter.unusedSectionVars false

namespace Verif
open Py Spec _root_.Verif.Tree

variable {R : Type} [Field R] [LinearOrder R] [IsStrictOrderedRing R]

/-- `am = true`: American, otherwise European. -/
structure IsVal (am isCall : Bool) (S K u d p Df : R) (n : ℕ) (V : ℕ → ℕ → R) : Prop where
  terminal : ∀ k ≤ n, V n k = payoff isCall (node S u d n k) K
  back : ∀ j < n, ∀ k ≤ j, V j k =
    if am then max (intrinsic isCall (node S u d j k) K)
      (Df * (p * V (j + 1) (k + 1) + (1 - p) * V (j + 1) k))
    else Df * (p * V (j + 1) (k + 1) + (1 - p) * V (j + 1) k)

def typeOf (am : Bool) : String := if am then "american" else "european"

theorem exists_val (am isCall : Bool) (S K u d p Df : R) (n : ℕ) :
    ∃ V, IsVal am isCall S K u d p Df n V := by
  cases am
  · obtain ⟨V, h⟩ := exists_european isCall S K u d p Df n
    exact ⟨V, h.terminal, by simpa using h.back⟩
  · obtain ⟨V, h⟩ := exists_american isCall S K u d p Df n
    exact ⟨V, h.terminal, by simpa using h.back⟩

theorem IsVal.european {isCall : Bool} {S K u d p Df : R} {n : ℕ} {V : ℕ → ℕ → R}
    (h : IsVal false isCall S K u d p Df n V) : IsEuropean isCall S K u d p Df n V :=
  ⟨h.terminal, by simpa using h.back⟩

theorem IsVal.american {isCall : Bool} {S K u d p Df : R} {n : ℕ} {V : ℕ → ℕ → R}
    (h : IsVal true isCall S K u d p Df n V) : IsAmerican isCall S K u d p Df n V :=
  ⟨h.terminal, by simpa using h.back⟩

theorem IsVal.roll {am isCall : Bool} {S K u d p Df : R} {n : ℕ} {V : ℕ → ℕ → R}
    (h : IsVal am isCall S K u d p Df n V) :
    RollSpec V n (Tree.roll S K u d p Df (zOf isCall) n (typeOf am)) := by
  cases am
  · exact roll_euro h.european
  · exact roll_amer h.american

section order
variable {am isCall : Bool} {S K u d p Df : R} {n : ℕ} {V : ℕ → ℕ → R}

/-- Comparison principle: continuation is monotone. -/
theorem cont_mono {a b a' b' : R} (hD : 0 ≤ Df) (hp : 0 ≤ p) (hp1 : p ≤ 1) (ha : a ≤ a') (hb : b ≤ b') :
    Df * (p * a + (1 - p) * b) ≤ Df * (p * a' + (1 - p) * b') := by
  have h1 : 0 ≤ 1 - p := by linarith
  gcongr

theorem IsVal.nonneg (h : IsVal am isCall S K u d p Df n V) (hD : 0 ≤ Df) (hp : 0 ≤ p) (hp1 : p ≤ 1) :
    ∀ j ≤ n, ∀ k ≤ j, 0 ≤ V j k := by
  refine level_induction (fun k hk => ?_) (fun j hj ih k hk => ?_)
  · rw [h.terminal k hk]; exact payoff_nonneg _ _ _
  · have hc : 0 ≤ Df * (p * V (j + 1) (k + 1) + (1 - p) * V (j + 1) k) :=
      mul_nonneg hD (add_nonneg (mul_nonneg hp (ih _ (by omega)))
        (mul_nonneg (by linarith) (ih _ (by omega))))
    rw [h.back j hj k hk]
    split
    · exact le_max_of_le_right hc
    · exact hc

theorem american_ge_intrinsic (h : IsVal true isCall S K u d p Df n V) :
    ∀ j ≤ n, ∀ k ≤ j, intrinsic isCall (node S u d j k) K ≤ V j k := by
  intro j hj k hk
  rcases Nat.lt_or_eq_of_le hj with h' | h'
  · rw [h.back j h' k hk, if_pos rfl]; exact le_max_left _ _
  · subst h'; rw [h.terminal k hk]; exact intrinsic_le_payoff _ _ _

theorem american_ge_european {E : ℕ → ℕ → R} (hA : IsVal true isCall S K u d p Df n V)
    (hE : IsVal false isCall S K u d p Df n E) (hD : 0 ≤ Df) (hp : 0 ≤ p) (hp1 : p ≤ 1) :
    ∀ j ≤ n, ∀ k ≤ j, E j k ≤ V j k := by
  refine level_induction (fun k hk => ?_) (fun j hj ih k hk => ?_)
  · rw [hA.terminal k hk, hE.terminal k hk]
  · rw [hA.back j hj k hk, hE.back j hj k hk, if_pos rfl, if_neg (by simp)]
    exact le_max_of_le_right (cont_mono hD hp hp1 (ih _ (by omega)) (ih _ (by omega)))

/-- The value of a claim paying at least `s - K` is at least `s·(Df·drift)^m - K·Df^m`. -/
theorem call_ge_forward (h : IsVal am true S K u d p Df n V) (hD : 0 ≤ Df) (hp : 0 ≤ p) (hp1 : p ≤ 1) :
    ∀ j ≤ n, ∀ k ≤ j, node S u d j k * (Df * (p * u + (1 - p) * d)) ^ (n - j) - K * Df ^ (n - j)
      ≤ V j k := by
  refine level_induction (fun k hk => ?_) (fun j hj ih k hk => ?_)
  · rw [h.terminal k hk]; simp [payoff]
  · have h1 := ih (k + 1) (by omega)
    have h2 := ih k (by omega)
    have hc := cont_mono hD hp hp1 h1 h2
    obtain ⟨m, hm⟩ : ∃ m, n - j = m + 1 := ⟨n - j - 1, by omega⟩
    have hm' : n - (j + 1) = m := by omega
    have hu : node S u d (j + 1) (k + 1) = node S u d j k * u := by
      simp only [node, Nat.add_sub_add_right, pow_succ]; ring
    have hd : node S u d (j + 1) k = node S u d j k * d := by
      simp only [node, show j + 1 - k = (j - k) + 1 by omega, pow_succ]; ring
    rw [hm', hu, hd] at hc
    have key : node S u d j k * (Df * (p * u + (1 - p) * d)) ^ (n - j) - K * Df ^ (n - j)
        ≤ Df * (p * V (j + 1) (k + 1) + (1 - p) * V (j + 1) k) := by
      refine le_trans (le_of_eq ?_) hc
      rw [hm, pow_succ, pow_succ]; ring
    rw [h.back j hj k hk]
    split
    · exact le_max_of_le_right key
    · exact key

/-- No early exercise when the discounted drift is at least one and the discount factor at most one. -/
theorem american_call_eq {E : ℕ → ℕ → R} (hA : IsVal true true S K u d p Df n V)
    (hE : IsVal false true S K u d p Df n E) (hS : 0 ≤ S) (hK : 0 ≤ K) (hu : 0 ≤ u) (hd : 0 ≤ d)
    (hD : 0 ≤ Df) (hD1 : Df ≤ 1) (hp : 0 ≤ p) (hp1 : p ≤ 1) (hdr : 1 ≤ Df * (p * u + (1 - p) * d)) :
    ∀ j ≤ n, ∀ k ≤ j, V j k = E j k := by
  refine level_induction (fun k hk => ?_) (fun j hj ih k hk => ?_)
  · rw [hA.terminal k hk, hE.terminal k hk]
  · rw [hA.back j hj k hk, if_pos rfl, ih _ (by omega), ih _ (by omega)]
    have hb := hE.back j hj k hk
    rw [if_neg (by simp)] at hb
    rw [← hb]
    refine max_eq_right ?_
    refine le_trans ?_ (call_ge_forward hE hD hp hp1 j (by omega) k hk)
    have h1 : 1 ≤ (Df * (p * u + (1 - p) * d)) ^ (n - j) := one_le_pow₀ hdr
    have h2 : Df ^ (n - j) ≤ 1 := pow_le_one₀ hD hD1
    have h3 : 0 ≤ node S u d j k := by unfold node; positivity
    have h4 := mul_le_mul_of_nonneg_left h1 h3
    have h5 := mul_le_mul_of_nonneg_left h2 hK
    simp only [intrinsic, if_true]
    linarith

/-- Monotonicity in the payoff: if payoffs and intrinsic values are ordered, so are values. -/
theorem val_mono {isCall' : Bool} {S' K' : R} {V' : ℕ → ℕ → R}
    (h : IsVal am isCall S K u d p Df n V) (h' : IsVal am isCall' S' K' u d p Df n V')
    (hD : 0 ≤ Df) (hp : 0 ≤ p) (hp1 : p ≤ 1)
    (hi : ∀ j ≤ n, ∀ k ≤ j, intrinsic isCall (node S u d j k) K ≤ intrinsic isCall' (node S' u d j k) K') :
    ∀ j ≤ n, ∀ k ≤ j, V j k ≤ V' j k := by
  refine level_induction (fun k hk => ?_) (fun j hj ih k hk => ?_)
  · rw [h.terminal k hk, h'.terminal k hk, payoff_eq, payoff_eq]
    exact max_le_max (hi n le_rfl k hk) le_rfl
  · rw [h.back j hj k hk, h'.back j hj k hk]
    have hc := cont_mono hD hp hp1 (ih (k + 1) (by omega)) (ih k (by omega))
    split
    · exact max_le_max (hi j hj.le k hk) hc
    · exact hc

/-- If intrinsic values differ by at most `c ≥ 0`, so do values (needs `Df ≤ 1`). -/
theorem val_lip {isCall' : Bool} {S' K' c : R} {V' : ℕ → ℕ → R}
    (h : IsVal am isCall S K u d p Df n V) (h' : IsVal am isCall' S' K' u d p Df n V')
    (hD : 0 ≤ Df) (hD1 : Df ≤ 1) (hp : 0 ≤ p) (hp1 : p ≤ 1) (hc : 0 ≤ c)
    (hi : ∀ j ≤ n, ∀ k ≤ j,
      intrinsic isCall (node S u d j k) K ≤ intrinsic isCall' (node S' u d j k) K' + c) :
    ∀ j ≤ n, ∀ k ≤ j, V j k ≤ V' j k + c := by
  refine level_induction (fun k hk => ?_) (fun j hj ih k hk => ?_)
  · rw [h.terminal k hk, h'.terminal k hk, payoff_eq, payoff_eq]
    refine max_le ((hi n le_rfl k hk).trans ?_) (by positivity)
    gcongr; exact le_max_left _ _
  · rw [h.back j hj k hk, h'.back j hj k hk]
    have h1 := cont_mono hD hp hp1 (ih (k + 1) (by omega)) (ih k (by omega))
    have h2 : Df * (p * V (j + 1) (k + 1) + (1 - p) * V (j + 1) k)
        ≤ Df * (p * V' (j + 1) (k + 1) + (1 - p) * V' (j + 1) k) + c := by
      have h3 : Df * c ≤ 1 * c := mul_le_mul_of_nonneg_right hD1 hc
      refine h1.trans ?_
      have : Df * (p * (V' (j + 1) (k + 1) + c) + (1 - p) * (V' (j + 1) k + c))
        = Df * (p * V' (j + 1) (k + 1) + (1 - p) * V' (j + 1) k) + Df * c := by ring
      rw [this]; linarith
    split
    · refine max_le ((hi j hj.le k hk).trans ?_) (h2.trans ?_)
      · gcongr; exact le_max_left _ _
      · gcongr; exact le_max_right _ _
    · exact h2

/-- Convexity in `(S, K)` jointly. -/
theorem val_convex {S₁ S₂ K₁ K₂ l : R} {V₁ V₂ : ℕ → ℕ → R} (hl : 0 ≤ l) (hl1 : l ≤ 1)
    (h₁ : IsVal am isCall S₁ K₁ u d p Df n V₁) (h₂ : IsVal am isCall S₂ K₂ u d p Df n V₂)
    (h : IsVal am isCall (l * S₁ + (1 - l) * S₂) (l * K₁ + (1 - l) * K₂) u d p Df n V)
    (hD : 0 ≤ Df) (hp : 0 ≤ p) (hp1 : p ≤ 1) :
    ∀ j ≤ n, ∀ k ≤ j, V j k ≤ l * V₁ j k + (1 - l) * V₂ j k := by
  have hl' : 0 ≤ 1 - l := by linarith
  have hi : ∀ j k, intrinsic isCall (node (l * S₁ + (1 - l) * S₂) u d j k) (l * K₁ + (1 - l) * K₂)
      = l * intrinsic isCall (node S₁ u d j k) K₁ + (1 - l) * intrinsic isCall (node S₂ u d j k) K₂ := by
    intro j k; cases isCall <;> simp [intrinsic, node] <;> ring
  refine level_induction (fun k hk => ?_) (fun j hj ih k hk => ?_)
  · rw [h.terminal k hk, h₁.terminal k hk, h₂.terminal k hk, payoff_eq, payoff_eq, payoff_eq, hi]
    refine max_le ?_ ?_
    · gcongr <;> exact le_max_left _ _
    · have := le_max_right (intrinsic isCall (node S₁ u d n k) K₁) 0
      have := le_max_right (intrinsic isCall (node S₂ u d n k) K₂) 0
      positivity
  · rw [h.back j hj k hk, h₁.back j hj k hk, h₂.back j hj k hk]
    have hc := cont_mono hD hp hp1 (ih (k + 1) (by omega)) (ih k (by omega))
    have e : Df * (p * (l * V₁ (j + 1) (k + 1) + (1 - l) * V₂ (j + 1) (k + 1))
        + (1 - p) * (l * V₁ (j + 1) k + (1 - l) * V₂ (j + 1) k))
        = l * (Df * (p * V₁ (j + 1) (k + 1) + (1 - p) * V₁ (j + 1) k))
          + (1 - l) * (Df * (p * V₂ (j + 1) (k + 1) + (1 - p) * V₂ (j + 1) k)) := by ring
    rw [e] at hc
    split
    · rw [hi]
      refine max_le ?_ (hc.trans ?_)
      · gcongr <;> exact le_max_left _ _
      · gcongr <;> exact le_max_right _ _
    · exact hc

/-- Homogeneity. -/
theorem val_homog {c : R} {V' : ℕ → ℕ → R} (hc : 0 ≤ c)
    (h : IsVal am isCall S K u d p Df n V) (h' : IsVal am isCall (c * S) (c * K) u d p Df n V') :
    ∀ j ≤ n, ∀ k ≤ j, V' j k = c * V j k := by
  have hi : ∀ j k, intrinsic isCall (node (c * S) u d j k) (c * K)
      = c * intrinsic isCall (node S u d j k) K := by
    intro j k; cases isCall <;> simp [intrinsic, node] <;> ring
  refine level_induction (fun k hk => ?_) (fun j hj ih k hk => ?_)
  · rw [h.terminal k hk, h'.terminal k hk, payoff_eq, payoff_eq, hi, mul_max_of_nonneg _ _ hc, mul_zero]
  · rw [h.back j hj k hk, h'.back j hj k hk, ih _ (by omega), ih _ (by omega), hi]
    split
    · rw [mul_max_of_nonneg _ _ hc]; congr 1; ring
    · ring

end order

/-! ### Trinomial against the binomial lattice with twice the steps -/

theorem european3_eq {isCall : Bool} {S K a q D : R} (ha : a ≠ 0) {n : ℕ} {V W : ℕ → ℕ → R}
    (hV : IsEuropean3 isCall S K (a ^ 2) (a⁻¹ ^ 2) (q ^ 2) (2 * q * (1 - q)) ((1 - q) ^ 2) (D ^ 2) n V)
    (hW : IsVal false isCall S K a a⁻¹ q D (2 * n) W) :
    ∀ j ≤ n, ∀ i ≤ 2 * j, V j i = W (2 * j) i := by
  have hn : ∀ j i, i ≤ 2 * j → node3 S (a ^ 2) (a⁻¹ ^ 2) j i = node S a a⁻¹ (2 * j) i := by
    intro j i hi
    unfold node3 node
    rw [mul_assoc, mul_assoc]
    congr 1
    rw [← pow_mul, ← pow_mul]
    rcases le_total i j with h | h
    · rw [Nat.sub_eq_zero_of_le h, mul_zero, pow_zero, one_mul,
        show 2 * j - i = 2 * (j - i) + i by omega, pow_add, ← mul_assoc, mul_comm (a ^ i), mul_assoc,
        ← mul_pow, mul_inv_cancel₀ ha, one_pow, mul_one]
    · rw [Nat.sub_eq_zero_of_le h, mul_zero, pow_zero, mul_one]
      obtain ⟨m, rfl⟩ := Nat.exists_eq_add_of_le h
      rw [show j + m - j = m by omega]
      have e : a ^ (j + m) * a⁻¹ ^ (2 * j - (j + m)) = a ^ (2 * m) * (a ^ (j - m) * a⁻¹ ^ (j - m)) := by
        rw [← mul_assoc, ← pow_add, show 2 * m + (j - m) = j + m by omega,
          show 2 * j - (j + m) = j - m by omega]
      rw [e, ← mul_pow, mul_inv_cancel₀ ha, one_pow, mul_one]
  refine level_induction (fun i hi => ?_) (fun j hj ih i hi => ?_)
  · rw [hV.terminal i hi, hW.terminal i hi, hn n i hi]
  · rw [hV.back j hj i hi, ih _ (by omega), ih _ (by omega), ih _ (by omega)]
    have h0 := hW.back (2 * j) (by omega) i hi
    have h1 := hW.back (2 * j + 1) (by omega) (i + 1) (by omega)
    have h2 := hW.back (2 * j + 1) (by omega) i (by omega)
    rw [if_neg (by simp)] at h0 h1 h2
    rw [h0, h1, h2, show 2 * (j + 1) = 2 * j + 1 + 1 by ring]
    ring

theorem american3_le {isCall : Bool} {S K a q D : R} (ha : a ≠ 0) {n : ℕ} {V W : ℕ → ℕ → R}
    (hD : 0 ≤ D) (hq : 0 ≤ q) (hq1 : q ≤ 1)
    (hV : IsAmerican3 isCall S K (a ^ 2) (a⁻¹ ^ 2) (q ^ 2) (2 * q * (1 - q)) ((1 - q) ^ 2) (D ^ 2) n V)
    (hW : IsVal true isCall S K a a⁻¹ q D (2 * n) W) :
    ∀ j ≤ n, ∀ i ≤ 2 * j, V j i ≤ W (2 * j) i := by
  have hn : ∀ j i, i ≤ 2 * j → node3 S (a ^ 2) (a⁻¹ ^ 2) j i = node S a a⁻¹ (2 * j) i := by
    intro j i hi
    unfold node3 node
    rw [mul_assoc, mul_assoc]
    congr 1
    rw [← pow_mul, ← pow_mul]
    rcases le_total i j with h | h
    · rw [Nat.sub_eq_zero_of_le h, mul_zero, pow_zero, one_mul,
        show 2 * j - i = 2 * (j - i) + i by omega, pow_add, ← mul_assoc, mul_comm (a ^ i), mul_assoc,
        ← mul_pow, mul_inv_cancel₀ ha, one_pow, mul_one]
    · rw [Nat.sub_eq_zero_of_le h, mul_zero, pow_zero, mul_one]
      obtain ⟨m, rfl⟩ := Nat.exists_eq_add_of_le h
      rw [show j + m - j = m by omega]
      have e : a ^ (j + m) * a⁻¹ ^ (2 * j - (j + m)) = a ^ (2 * m) * (a ^ (j - m) * a⁻¹ ^ (j - m)) := by
        rw [← mul_assoc, ← pow_add, show 2 * m + (j - m) = j + m by omega,
          show 2 * j - (j + m) = j - m by omega]
      rw [e, ← mul_pow, mul_inv_cancel₀ ha, one_pow, mul_one]
  refine level_induction (fun i hi => ?_) (fun j hj ih i hi => ?_)
  · rw [hV.terminal i hi, hW.terminal i hi, hn n i hi]
  · rw [hV.back j hj i hi, hn j i hi]
    refine max_le (american_ge_intrinsic hW (2 * j) (by omega) i hi) ?_
    have h0 := hW.back (2 * j) (by omega) i hi
    have h1 := hW.back (2 * j + 1) (by omega) (i + 1) (by omega)
    have h2 := hW.back (2 * j + 1) (by omega) i (by omega)
    rw [if_pos rfl] at h0 h1 h2
    rw [h0]
    refine le_max_of_le_right ?_
    have g1 : D * (q * W (2 * j + 1 + 1) (i + 1 + 1) + (1 - q) * W (2 * j + 1 + 1) (i + 1))
        ≤ W (2 * j + 1) (i + 1) := by rw [h1]; exact le_max_right _ _
    have g2 : D * (q * W (2 * j + 1 + 1) (i + 1) + (1 - q) * W (2 * j + 1 + 1) i)
        ≤ W (2 * j + 1) i := by rw [h2]; exact le_max_right _ _
    refine le_trans ?_ (cont_mono hD hq hq1 g1 g2)
    have i0 := ih i (by omega)
    have i1 := ih (i + 1) (by omega)
    have i2 := ih (i + 2) (by omega)
    rw [show 2 * (j + 1) = 2 * j + 1 + 1 by ring] at i0 i1 i2
    have hq' : 0 ≤ 1 - q := by linarith
    calc D ^ 2 * (q ^ 2 * V (j + 1) (i + 2) + 2 * q * (1 - q) * V (j + 1) (i + 1)
          + (1 - q) ^ 2 * V (j + 1) i)
        ≤ D ^ 2 * (q ^ 2 * W (2 * j + 1 + 1) (i + 2) + 2 * q * (1 - q) * W (2 * j + 1 + 1) (i + 1)
          + (1 - q) ^ 2 * W (2 * j + 1 + 1) i) := by gcongr
      _ = _ := by ring

theorem american3_ge_european3 {isCall : Bool} {S K u d pu pm pd Df : R} {n : ℕ} {V E : ℕ → ℕ → R}
    (hA : IsAmerican3 isCall S K u d pu pm pd Df n V) (hE : IsEuropean3 isCall S K u d pu pm pd Df n E)
    (hD : 0 ≤ Df) (h1 : 0 ≤ pu) (h2 : 0 ≤ pm) (h3 : 0 ≤ pd) :
    ∀ j ≤ n, ∀ i ≤ 2 * j, E j i ≤ V j i := by
  refine level_induction (fun k hk => ?_) (fun j hj ih k hk => ?_)
  · rw [hA.terminal k hk, hE.terminal k hk]
  · rw [hA.back j hj k hk, hE.back j hj k hk]
    refine le_max_of_le_right ?_
    have i0 := ih k (by omega)
    have i1 := ih (k + 1) (by omega)
    have i2 := ih (k + 2) (by omega)
    gcongr

theorem american3_ge_intrinsic {isCall : Bool} {S K u d pu pm pd Df : R} {n : ℕ} {V : ℕ → ℕ → R}
    (h : IsAmerican3 isCall S K u d pu pm pd Df n V) :
    ∀ j ≤ n, ∀ i ≤ 2 * j, intrinsic isCall (node3 S u d j i) K ≤ V j i := by
  intro j hj k hk
  rcases Nat.lt_or_eq_of_le hj with h' | h'
  · rw [h.back j h' k hk]; exact le_max_left _ _
  · subst h'; rw [h.terminal k hk]; exact intrinsic_le_payoff _ _ _

end Verif
