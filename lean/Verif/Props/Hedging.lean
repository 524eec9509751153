import Verif.Spec.Hedging
import Verif.Props.Stopping

/-!
# C112: CRR and TIAN prices are costs of hedging

In the market of the lattice — the stock moves by `u` or `d`, pays its yield `r - b`, and cash earns `r` — the American price is
the least capital that covers the payoff whenever it is claimed, and the European price the only capital that replicates it. On
the JR lattice neither calls nor puts can both be so: its probability is not the one of that market.
-/
namespace Verif.Props
open Real Spec _root_.Verif.Tree Py

variable {u d Y G D p : ℝ}

/-- What the market and the one-step mean have in common: `p u + (1-p) d` is the forward factor `G / Y`, `D` discounts cash. -/
structure Market (u d Y G D p : ℝ) : Prop where
  lt : d < u
  Y0 : 0 < Y
  G0 : 0 < G
  disc : D * G = 1
  mean : Y * (p * u + (1 - p) * d) = G

/-- The mean of the wealth after one move, discounted, is the initial wealth. -/
theorem Market.fair (h : Market u d Y G D p) (s x δ : ℝ) :
    D * (p * (δ * Y * (s * u) + (x - δ * s) * G) + (1 - p) * (δ * Y * (s * d) + (x - δ * s) * G)) = x := by
  have : D * (p * (δ * Y * (s * u) + (x - δ * s) * G) + (1 - p) * (δ * Y * (s * d) + (x - δ * s) * G))
      = δ * s * (D * (Y * (p * u + (1 - p) * d))) + (x - δ * s) * (D * G) := by ring
  rw [this, h.mean, h.disc]; ring

/-- With the hedge ratio the wealth after either move exceeds given targets by the same amount. -/
theorem Market.hedge (h : Market u d Y G D p) (s x : ℝ) (F : ℝ → ℝ) :
    ∃ δ, ∀ a : Bool, δ * Y * (s * if a then u else d) + (x - δ * s) * G
      = F (s * if a then u else d) + G * (x - binOp D p u d F s) := by
  have hud : u - d ≠ 0 := by linarith [h.lt]
  have hY := h.Y0.ne'
  by_cases hs : s = 0
  · refine ⟨0, fun a => ?_⟩
    subst hs
    simp only [binOp, zero_mul, mul_zero, sub_zero, zero_add]
    linear_combination (F 0) * h.disc
  · refine ⟨(F (s * u) - F (s * d)) / (Y * s * (u - d)), fun a => ?_⟩
    obtain ⟨δ, hδ⟩ : ∃ δ, δ = (F (s * u) - F (s * d)) / (Y * s * (u - d)) := ⟨_, rfl⟩
    rw [← hδ]
    have e1 : δ * Y * s * (u - d) = F (s * u) - F (s * d) := by rw [hδ]; field_simp
    have hm := h.mean
    have hd := h.disc
    simp only [binOp]
    cases a
    · simp only [Bool.false_eq_true, if_false]
      linear_combination (-p) * e1 + δ * s * hm + (p * F (s * u) + (1 - p) * F (s * d)) * hd
    · simp only [if_true]
      linear_combination (1 - p) * e1 + δ * s * hm + (p * F (s * u) + (1 - p) * F (s * d)) * hd

/-- Any capital that covers the payoff is at least the American value. -/
theorem Market.vf_le (h : Market u d Y G D p) (hD : 0 ≤ D) (p0 : 0 ≤ p) (p1 : p ≤ 1) (isCall : Bool) (K : ℝ) (n : ℕ) :
    ∀ s x Δ, (∀ l : List Bool, l.length ≤ n → payoff isCall (priceAfter u d s l) K ≤ wealth u d Y G s x Δ l) →
      vf true isCall K (binOp D p u d) n s ≤ x := by
  induction n with
  | zero => intro s x Δ hx; exact hx [] le_rfl
  | succ n ih =>
    intro s x Δ hx
    simp only [vf, if_true]
    refine max_le ((le_max_left _ 0).trans (le_of_eq_of_le (payoff_eq isCall s K).symm (hx [] (Nat.zero_le _)))) ?_
    have hb : ∀ a : Bool, vf true isCall K (binOp D p u d) n (s * if a then u else d)
        ≤ Δ [] * Y * (s * if a then u else d) + (x - Δ [] * s) * G := fun a =>
      ih _ _ (fun l => Δ (a :: l)) fun l hl => hx (a :: l) (by simpa using hl)
    have h1 := hb true
    have h2 := hb false
    simp only [if_true, Bool.false_eq_true, if_false] at h1 h2
    rw [← h.fair s x (Δ [])]
    have h3 := mul_le_mul_of_nonneg_left h1 p0
    have h4 := mul_le_mul_of_nonneg_left h2 (by linarith : 0 ≤ 1 - p)
    exact mul_le_mul_of_nonneg_left (by linarith) hD

/-- The American value, and any larger capital, covers the payoff. -/
theorem Market.covers (h : Market u d Y G D p) (hD : 0 ≤ D) (p0 : 0 ≤ p) (p1 : p ≤ 1) (isCall : Bool) (K : ℝ) (n : ℕ) :
    ∀ s x, vf true isCall K (binOp D p u d) n s ≤ x →
      ∃ Δ, ∀ l : List Bool, l.length ≤ n → payoff isCall (priceAfter u d s l) K ≤ wealth u d Y G s x Δ l := by
  have h0 : ∀ F : ℝ → ℝ, (∀ s, 0 ≤ F s) → ∀ s, 0 ≤ binOp D p u d F s := fun F hF s =>
    mul_nonneg hD (add_nonneg (mul_nonneg p0 (hF _)) (mul_nonneg (by linarith) (hF _)))
  induction n with
  | zero =>
    intro s x hx
    refine ⟨fun _ => 0, fun l hl => ?_⟩
    rw [List.length_eq_zero_iff.1 (Nat.le_zero.1 hl)]
    exact hx
  | succ n ih =>
    intro s x hx
    simp only [vf, if_true] at hx
    rw [max_intrinsic (h0 _ (vf_nonneg' h0 true isCall K n) s)] at hx
    obtain ⟨δ, hδ⟩ := h.hedge s x (vf true isCall K (binOp D p u d) n)
    have hx2 := (le_max_right _ _).trans hx
    have hstep : ∀ a : Bool, ∃ Δ, ∀ l : List Bool, l.length ≤ n →
        payoff isCall (priceAfter u d (s * if a then u else d) l) K
          ≤ wealth u d Y G (s * if a then u else d) (δ * Y * (s * if a then u else d) + (x - δ * s) * G) Δ l := fun a =>
      ih _ _ (by rw [hδ a]; nlinarith [h.G0])
    choose Δ hΔ using hstep
    refine ⟨fun l => match l with | [] => δ | a :: l => Δ a l, fun l hl => ?_⟩
    cases l with
    | nil => exact (le_max_left _ _).trans hx
    | cons a l => exact hΔ a l (by simpa using hl)

/-- **Completeness.** The European value is the only capital that replicates the payoff. -/
theorem Market.replicates_iff (h : Market u d Y G D p) (isCall : Bool) (K : ℝ) (n : ℕ) :
    ∀ s x, Replicates u d Y G (fun s => payoff isCall s K) n s x ↔ x = vf false isCall K (binOp D p u d) n s := by
  induction n with
  | zero =>
    refine fun s x => ⟨fun ⟨Δ, hΔ⟩ => hΔ [] rfl, fun hx => ⟨fun _ => 0, fun l hl => ?_⟩⟩
    rw [List.length_eq_zero_iff.1 hl]
    exact hx
  | succ n ih =>
    intro s x
    constructor
    · rintro ⟨Δ, hΔ⟩
      have hb : ∀ a : Bool, Δ [] * Y * (s * if a then u else d) + (x - Δ [] * s) * G
          = vf false isCall K (binOp D p u d) n (s * if a then u else d) := fun a =>
        (ih _ _).1 ⟨fun l => Δ (a :: l), fun l hl => hΔ (a :: l) (by simpa using hl)⟩
      have h1 := hb true
      have h2 := hb false
      simp only [if_true, Bool.false_eq_true, if_false] at h1 h2
      simp only [vf, Bool.false_eq_true, if_false, binOp]
      rw [← h1, ← h2, h.fair]
    · intro hx
      simp only [vf, Bool.false_eq_true, if_false] at hx
      obtain ⟨δ, hδ⟩ := h.hedge s x (vf false isCall K (binOp D p u d) n)
      have hstep : ∀ a : Bool, Replicates u d Y G (fun s => payoff isCall s K) n (s * if a then u else d)
          (δ * Y * (s * if a then u else d) + (x - δ * s) * G) := fun a => (ih _ _).2 (by rw [hδ a, ← hx]; ring)
      choose Δ hΔ using hstep
      refine ⟨fun l => match l with | [] => δ | a :: l => Δ a l, fun l hl => ?_⟩
      cases l with
      | nil => simp at hl
      | cons a l => exact hΔ a l (by simpa using hl)

/-- The market of a lattice. -/
theorem market {o : Opt} {u d p : ℝ} (hlt : d < u) (hm : p * u + (1 - p) * d = exp (o.b * (o.t / o.n))) :
    Market u d (exp ((o.r - o.b) * (o.t / o.n))) (exp (o.r * (o.t / o.n))) (exp (-o.r * (o.t / o.n))) p where
  lt := hlt
  Y0 := exp_pos _
  G0 := exp_pos _
  disc := by rw [← exp_add, neg_mul, neg_add_cancel, exp_zero]
  mean := by rw [hm, ← exp_add]; congr 1; ring

/-- The American price in the factors of the class. -/
theorem hedging_american (c : Cls) (hc : c = .crr ∨ c = .tian) (o : Opt) (h : TreeValid o) (hp : ProbOK c o)
    (hty : o.type = "american") (isCall : Bool) :
    ∃ x, price c o isCall = .ok x ∧ IsHedgingCost (factors c o).u (factors c o).d (exp ((o.r - o.b) * (o.t / o.n)))
      (exp (o.r * (o.t / o.n))) (fun s => payoff isCall s o.K) o.n o.S x := by
  obtain ⟨p0, p1⟩ := prob_ok h hp
  have g : Good (factors c o) (exp (o.b * (o.t / o.n))) := by
    rcases hc with rfl | rfl
    · exact good_crr h
    · exact good_tian h
  have M := market (o := o) g.lt g.mean
  refine ⟨_, price_vf (am := true) h.n hty isCall, ?_⟩
  rw [Df_eq]
  exact ⟨M.covers (exp_pos _).le p0 (by linarith) isCall o.K o.n o.S _ le_rfl,
    fun x ⟨Δ, hΔ⟩ => M.vf_le (exp_pos _).le p0 (by linarith) isCall o.K o.n o.S x Δ hΔ⟩

/-- The European price in the factors of the class. -/
theorem hedging_european (c : Cls) (hc : c = .crr ∨ c = .tian) (o : Opt) (h : TreeValid o) (hty : o.type = "european")
    (isCall : Bool) :
    ∃ x, price c o isCall = .ok x ∧ ∀ y, Replicates (factors c o).u (factors c o).d (exp ((o.r - o.b) * (o.t / o.n)))
      (exp (o.r * (o.t / o.n))) (fun s => payoff isCall s o.K) o.n o.S y ↔ y = x := by
  have g : Good (factors c o) (exp (o.b * (o.t / o.n))) := by
    rcases hc with rfl | rfl
    · exact good_crr h
    · exact good_tian h
  refine ⟨_, price_vf (am := false) h.n hty isCall, ?_⟩
  rw [Df_eq]
  exact (market (o := o) g.lt g.mean).replicates_iff isCall o.K o.n o.S

/-- **C112, CRR tree.** The American price is the least capital that covers the payoff whenever it is claimed. -/
theorem C112_crr (S K t r b σ : ℝ) (n : ℕ) (ht : 0 < t) (hσ : 0 < σ) (hn : 0 < n) (hb : |b| * √(t / n) ≤ σ) (isCall : Bool)
    (u d : ℝ) (hu : u = exp (σ * √(t / n))) (hd : d = 1 / u) :
    ∃ x, price .crr ⟨S, K, t, r, b, σ, "american", n⟩ isCall = .ok x ∧
      IsHedgingCost u d (exp ((r - b) * (t / n))) (exp (r * (t / n))) (fun s => payoff isCall s K) n S x := by
  subst hd hu
  exact hedging_american .crr (Or.inl rfl) ⟨S, K, t, r, b, σ, "american", n⟩ ⟨ht, hσ, hn⟩ (fun _ => hb) rfl isCall

/-- **C112, TIAN tree.** -/
theorem C112_tian (S K t r b σ : ℝ) (n : ℕ) (ht : 0 < t) (hσ : 0 < σ) (hn : 0 < n) (isCall : Bool) (M V u d : ℝ)
    (hM : M = exp (b * (t / n))) (hV : V = exp (σ ^ 2 * (t / n))) (hu : u = M * V / 2 * (V + 1 + √(V * V + 2 * V - 3)))
    (hd : d = M * V / 2 * (V + 1 - √(V * V + 2 * V - 3))) :
    ∃ x, price .tian ⟨S, K, t, r, b, σ, "american", n⟩ isCall = .ok x ∧
      IsHedgingCost u d (exp ((r - b) * (t / n))) (exp (r * (t / n))) (fun s => payoff isCall s K) n S x := by
  subst hd hu hV hM
  exact hedging_american .tian (Or.inr rfl) ⟨S, K, t, r, b, σ, "american", n⟩ ⟨ht, hσ, hn⟩ (fun h => nomatch h) rfl isCall

/-- **C112, CRR tree.** The European price is the only capital from which the payoff can be replicated; for this the probability
need not lie between 0 and 1. -/
theorem C112_crr_european (S K t r b σ : ℝ) (n : ℕ) (ht : 0 < t) (hσ : 0 < σ) (hn : 0 < n) (isCall : Bool)
    (u d : ℝ) (hu : u = exp (σ * √(t / n))) (hd : d = 1 / u) :
    ∃ x, price .crr ⟨S, K, t, r, b, σ, "european", n⟩ isCall = .ok x ∧
      ∀ y, Replicates u d (exp ((r - b) * (t / n))) (exp (r * (t / n))) (fun s => payoff isCall s K) n S y ↔ y = x := by
  subst hd hu
  exact hedging_european .crr (Or.inl rfl) ⟨S, K, t, r, b, σ, "european", n⟩ ⟨ht, hσ, hn⟩ rfl isCall

/-- **C112, TIAN tree.** -/
theorem C112_tian_european (S K t r b σ : ℝ) (n : ℕ) (ht : 0 < t) (hσ : 0 < σ) (hn : 0 < n) (isCall : Bool) (M V u d : ℝ)
    (hM : M = exp (b * (t / n))) (hV : V = exp (σ ^ 2 * (t / n))) (hu : u = M * V / 2 * (V + 1 + √(V * V + 2 * V - 3)))
    (hd : d = M * V / 2 * (V + 1 - √(V * V + 2 * V - 3))) :
    ∃ x, price .tian ⟨S, K, t, r, b, σ, "european", n⟩ isCall = .ok x ∧
      ∀ y, Replicates u d (exp ((r - b) * (t / n))) (exp (r * (t / n))) (fun s => payoff isCall s K) n S y ↔ y = x := by
  subst hd hu hV hM
  exact hedging_european .tian (Or.inr rfl) ⟨S, K, t, r, b, σ, "european", n⟩ ⟨ht, hσ, hn⟩ rfl isCall

/-- Parity of the European values. -/
theorem vf_parity (K : ℝ) (n : ℕ) : ∀ s, vf false true K (binOp D p u d) n s - vf false false K (binOp D p u d) n s
    = s * (D * (p * u + (1 - p) * d)) ^ n - K * D ^ n := by
  induction n with
  | zero => intro s; simp only [vf, pow_zero, mul_one]; exact payoff_sub s K
  | succ n ih =>
    intro s
    simp only [vf, Bool.false_eq_true, if_false, binOp]
    have h1 := ih (s * u)
    have h2 := ih (s * d)
    linear_combination D * p * h1 + D * (1 - p) * h2

/-- **C112 (finding), JR tree.** Whatever the parameters, the European JR prices of the call and of the put with the same terms
are not both the capital that replicates on the JR lattice. -/
theorem C112_jr_fails (S K t r b σ : ℝ) (n : ℕ) (ht : 0 < t) (hσ : 0 < σ) (hn : 0 < n) (hS : 0 < S) (u d : ℝ)
    (hu : u = exp ((b - σ ^ 2 / 2) * (t / n) + σ * √(t / n))) (hd : d = exp ((b - σ ^ 2 / 2) * (t / n) - σ * √(t / n))) :
    ¬ ∀ isCall, ∃ x, price .jr ⟨S, K, t, r, b, σ, "european", n⟩ isCall = .ok x ∧
      Replicates u d (exp ((r - b) * (t / n))) (exp (r * (t / n))) (fun s => payoff isCall s K) n S x := by
  intro H
  have hv : TreeValid ⟨S, K, t, r, b, σ, "european", n⟩ := ⟨ht, hσ, hn⟩
  have hlt : d < u := by
    rw [hu, hd, exp_lt_exp]
    have : 0 < σ * √(t / n) := mul_pos hσ (sqrt_pos.2 hv.dt)
    linarith
  have hne : u - d ≠ 0 := by linarith
  have hm : (exp (b * (t / n)) - d) / (u - d) * u + (1 - (exp (b * (t / n)) - d) / (u - d)) * d = exp (b * (t / n)) := by
    field_simp; ring
  have M := market (o := ⟨S, K, t, r, b, σ, "european", n⟩) hlt hm
  obtain ⟨x, hx, hrx⟩ := H true
  obtain ⟨y, hy, hry⟩ := H false
  obtain ⟨x', y', hx', hy', hlt'⟩ := C19_jr_violates _ hv hS rfl
  rw [hx] at hx'; cases hx'
  rw [hy] at hy'; cases hy'
  have ex := (M.replicates_iff true K n S x).1 hrx
  have ey := (M.replicates_iff false K n S y).1 hry
  have hp := vf_parity (D := exp (-r * (t / n))) (p := (exp (b * (t / n)) - d) / (u - d)) (u := u) (d := d) K n S
  have hn0 : n ≠ 0 := hn.ne'
  rw [hm, mul_pow, exp_div_pow _ _ hn0, exp_div_pow _ _ hn0, ← exp_add] at hp
  have e : -r * t + b * t = (b - r) * t := by ring
  rw [e] at hp
  simp only at ex ey hlt'
  rw [← ex, ← ey] at hp
  exact absurd hp hlt'.ne

/-- A one-step market: spot 100, moves to 125 or 80, no interest; the put struck at 100 costs `100/9`. -/
example : Replicates (5 / 4) (4 / 5) 1 1 (fun s => payoff false s 100) 1 100 (100 / 9) := by
  refine ⟨fun _ => -4 / 9, fun l hl => ?_⟩
  obtain ⟨a, rfl⟩ := List.length_eq_one_iff.1 hl
  cases a <;> norm_num [wealth, priceAfter, payoff]

/-- The documented tree: the price covers the payoff, any smaller capital does not. -/
example : ∃ x, price .crr (exampleTree "american") false = .ok x ∧
    IsHedgingCost (factors .crr (exampleTree "american")).u (factors .crr (exampleTree "american")).d
      (exp ((1 / 10 - 1 / 10) * (5 / 12 / (5 : ℕ)))) (exp (1 / 10 * (5 / 12 / (5 : ℕ)))) (fun s => payoff false s 50) 5 50 x :=
  hedging_american .crr (Or.inl rfl) _ (exampleTree_valid "american") (exampleTree_prob _ _) rfl false

end Verif.Props
