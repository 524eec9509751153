import Verif.Props.TreeOrder

/-! C21 and C23 for trinomial trees: values at every node, shape of the price in strike and spot. -/
namespace Verif.Props
open Real Spec _root_.Verif.Tree Py

/-- Weighted sum over an up, a middle and a down move. -/
noncomputable def triOp (x y z a : ℝ) (f : ℝ → ℝ) (s : ℝ) : ℝ := x * f (s * a) + y * f s + z * f (s * a⁻¹)

theorem triOp_apply (x y z a : ℝ) (f : ℝ → ℝ) (s : ℝ) :
    triOp x y z a f s = x * f (s * a) + y * f s + z * f (s * a⁻¹) := rfl

theorem binOp_comp {D p u : ℝ} (hu : 0 < u) :
    (fun f => binOp D p u u⁻¹ (binOp D p u u⁻¹ f))
      = triOp (D * p * (D * p)) (D * p * (D * (1 - p)) + D * (1 - p) * (D * p)) (D * (1 - p) * (D * (1 - p))) (u * u) := by
  funext f s
  have e1 : s * u * u = s * (u * u) := by ring
  have e2 : s * u * u⁻¹ = s := by field_simp
  have e3 : s * u⁻¹ * u = s := by field_simp
  have e4 : s * u⁻¹ * u⁻¹ = s * (u * u)⁻¹ := by rw [mul_inv]; ring
  simp only [binOp, triOp, e1, e2, e3, e4]
  ring

theorem vf_comp (isCall : Bool) (K : ℝ) (T : (ℝ → ℝ) → ℝ → ℝ) (n : ℕ) :
    vf false isCall K T (2 * n) = vf false isCall K (fun f => T (T f)) n := by
  induction n with
  | zero => funext s; rfl
  | succ n ih =>
    funext s
    have e : ∀ m, vf false isCall K T (m + 1) = T (vf false isCall K T m) := fun m => by
      funext s; simp [vf]
    rw [show 2 * (n + 1) = 2 * n + 1 + 1 by ring, e, e, ih]
    simp [vf]

/-- A trinomial price is the value function of a three-point operator with nonnegative weights. -/
theorem price3_tri {o : Opt} (h : TreeValid o) (hp : |o.b| * √(o.t / o.n / 2) ≤ o.sigma) :
    ∃ x y z a : ℝ, 0 ≤ x ∧ 0 ≤ y ∧ 0 ≤ z ∧ 0 < a ∧ (0 ≤ o.r → x + y + z ≤ 1) ∧
      ∀ S K am isCall, price3 { o with S := S, K := K, type := typeOf am } isCall
        = .ok (vf am isCall K (triOp x y z a) o.n S) := by
  have h2 : TreeValid { o with n := 2 * o.n } := ⟨h.t, h.sigma, by show 0 < 2 * o.n; have := h.n; omega⟩
  have hdt : o.t / ((2 * o.n : ℕ) : ℝ) = o.t / o.n / 2 := by push_cast; field_simp
  have hp2 : |o.b| * √(o.t / ((2 * o.n : ℕ) : ℝ)) ≤ o.sigma := by rwa [hdt]
  obtain ⟨p0, p1⟩ := crr_prob h2 hp2
  have D0 := Df_nonneg (o := { o with n := 2 * o.n }) .crr
  have u0 : 0 < (factors .crr { o with n := 2 * o.n }).u := exp_pos _
  set g := factors .crr { o with n := 2 * o.n } with hg
  have q0 : 0 ≤ 1 - g.p := by linarith
  refine ⟨g.Df * g.p * (g.Df * g.p), g.Df * g.p * (g.Df * (1 - g.p)) + g.Df * (1 - g.p) * (g.Df * g.p),
    g.Df * (1 - g.p) * (g.Df * (1 - g.p)), g.u * g.u, by positivity, by positivity, by positivity,
    by positivity, fun hr => ?_, fun S K am isCall => ?_⟩
  · have D1 := Df_le_one .crr h2 hr
    have : g.Df * g.Df ≤ 1 := by nlinarith
    nlinarith
  · rw [← binOp_comp u0]
    have h' : TreeValid { o with S := S, K := K, type := typeOf am } := ⟨h.t, h.sigma, h.n⟩
    cases am
    · rw [C25_trinomial_eq_crr _ h' rfl isCall, ← vf_comp]
      have := price_vf (c := .crr) (o := { o with S := S, K := K, type := "european", n := 2 * o.n }) (am := false)
        h2.n rfl isCall
      rw [crr_d_inv] at this
      exact this
    · exact price3_vf h' rfl isCall

section
variable {x y z a : ℝ}

theorem tri_vf_mono (hx : 0 ≤ x) (hy : 0 ≤ y) (hz : 0 ≤ z) (ha : 0 < a) (am isCall : Bool) {K K' s s' : ℝ} (n : ℕ)
    (hi : ∀ c, 0 < c → intrinsic isCall (s * c) K ≤ intrinsic isCall (s' * c) K') (c : ℝ) (hc : 0 < c) :
    vf am isCall K (triOp x y z a) n (s * c) ≤ vf am isCall K' (triOp x y z a) n (s' * c) := by
  induction n generalizing c with
  | zero =>
    have := hi c hc
    cases isCall <;> simp only [vf, payoff, intrinsic, if_true, Bool.false_eq_true, if_false] at this ⊢ <;>
      exact max_le_max this le_rfl
  | succ n ih =>
    have e : triOp x y z a (vf am isCall K (triOp x y z a) n) (s * c)
        ≤ triOp x y z a (vf am isCall K' (triOp x y z a) n) (s' * c) := by
      simp only [triOp_apply]
      have i1 := ih (c * a) (by positivity)
      have i2 := ih c hc
      have i3 := ih (c * a⁻¹) (by positivity)
      rw [← mul_assoc, ← mul_assoc] at i1 i3
      gcongr
    cases am
    · simpa [vf] using e
    · simpa [vf] using max_le_max (hi c hc) e

theorem tri_vf_lip (hx : 0 ≤ x) (hy : 0 ≤ y) (hz : 0 ≤ z) (h1 : x + y + z ≤ 1) (am isCall : Bool) (K K' : ℝ) (n : ℕ)
    (s : ℝ) : vf am isCall K (triOp x y z a) n s ≤ vf am isCall K' (triOp x y z a) n s + |K - K'| := by
  have l1 := le_abs_self (K - K')
  have l2 := neg_abs_le (K - K')
  have l0 := abs_nonneg (K - K')
  induction n generalizing s with
  | zero =>
    cases isCall <;> simp only [vf, payoff, if_true, Bool.false_eq_true, if_false] <;> refine max_le ?_ ?_
    · linarith [le_max_left (K' - s) 0]
    · linarith [le_max_right (K' - s) 0]
    · linarith [le_max_left (s - K') 0]
    · linarith [le_max_right (s - K') 0]
  | succ n ih =>
    have e : triOp x y z a (vf am isCall K (triOp x y z a) n) s
        ≤ triOp x y z a (vf am isCall K' (triOp x y z a) n) s + |K - K'| := by
      simp only [triOp_apply]
      have i1 := mul_le_mul_of_nonneg_left (ih (s * a)) hx
      have i2 := mul_le_mul_of_nonneg_left (ih s) hy
      have i3 := mul_le_mul_of_nonneg_left (ih (s * a⁻¹)) hz
      have := mul_le_mul_of_nonneg_right h1 l0
      linarith
    cases am
    · simpa [vf] using e
    · simp only [vf, if_true]
      refine max_le ?_ (e.trans (by gcongr; exact le_max_right _ _))
      have : intrinsic isCall s K ≤ intrinsic isCall s K' + |K - K'| := by
        cases isCall <;> simp only [intrinsic, if_true, Bool.false_eq_true, if_false] <;> linarith
      exact this.trans (by gcongr; exact le_max_left _ _)

theorem tri_vf_convex (hx : 0 ≤ x) (hy : 0 ≤ y) (hz : 0 ≤ z) (am isCall : Bool) {K₁ K₂ l : ℝ} (hl : 0 ≤ l)
    (hl1 : l ≤ 1) (n : ℕ) (s₁ s₂ : ℝ) :
    vf am isCall (l * K₁ + (1 - l) * K₂) (triOp x y z a) n (l * s₁ + (1 - l) * s₂)
      ≤ l * vf am isCall K₁ (triOp x y z a) n s₁ + (1 - l) * vf am isCall K₂ (triOp x y z a) n s₂ := by
  have hm : 0 ≤ 1 - l := by linarith
  have hi : intrinsic isCall (l * s₁ + (1 - l) * s₂) (l * K₁ + (1 - l) * K₂)
      = l * intrinsic isCall s₁ K₁ + (1 - l) * intrinsic isCall s₂ K₂ := by
    cases isCall <;> simp only [intrinsic, if_true, Bool.false_eq_true, if_false] <;> ring
  induction n generalizing s₁ s₂ with
  | zero =>
    have q : ∀ s K : ℝ, payoff isCall s K = max (intrinsic isCall s K) 0 := by
      intro s K; cases isCall <;> simp [payoff, intrinsic]
    simp only [vf, q, hi]
    refine max_le ?_ (by positivity)
    gcongr <;> exact le_max_left _ _
  | succ n ih =>
    have e : triOp x y z a (vf am isCall (l * K₁ + (1 - l) * K₂) (triOp x y z a) n) (l * s₁ + (1 - l) * s₂)
        ≤ l * triOp x y z a (vf am isCall K₁ (triOp x y z a) n) s₁
          + (1 - l) * triOp x y z a (vf am isCall K₂ (triOp x y z a) n) s₂ := by
      simp only [triOp_apply]
      have hi' : ∀ s₁ s₂, intrinsic isCall (l * s₁ + (1 - l) * s₂) (l * K₁ + (1 - l) * K₂)
          = l * intrinsic isCall s₁ K₁ + (1 - l) * intrinsic isCall s₂ K₂ := by
        intro s₁ s₂
        cases isCall <;> simp only [intrinsic, if_true, Bool.false_eq_true, if_false] <;> ring
      have i1 := mul_le_mul_of_nonneg_left (ih (s₁ * a) (s₂ * a) (hi' _ _)) hx
      have i2 := mul_le_mul_of_nonneg_left (ih s₁ s₂ (hi' _ _)) hy
      have i3 := mul_le_mul_of_nonneg_left (ih (s₁ * a⁻¹) (s₂ * a⁻¹) (hi' _ _)) hz
      rw [show (l * s₁ + (1 - l) * s₂) * a = l * (s₁ * a) + (1 - l) * (s₂ * a) by ring,
        show (l * s₁ + (1 - l) * s₂) * a⁻¹ = l * (s₁ * a⁻¹) + (1 - l) * (s₂ * a⁻¹) by ring]
      linarith
    cases am
    · simpa [vf] using e
    · simp only [vf, if_true, hi]
      refine max_le ?_ (e.trans ?_)
      · gcongr <;> exact le_max_left _ _
      · gcongr <;> exact le_max_right _ _

theorem tri_vf_homog (am isCall : Bool) {K l : ℝ} (hl : 0 ≤ l) (n : ℕ) (s : ℝ) :
    vf am isCall (l * K) (triOp x y z a) n (l * s) = l * vf am isCall K (triOp x y z a) n s := by
  induction n generalizing s with
  | zero =>
    cases isCall <;> simp only [vf, payoff, if_true, Bool.false_eq_true, if_false] <;>
      rw [← mul_sub, mul_max_of_nonneg _ _ hl, mul_zero]
  | succ n ih =>
    have e : triOp x y z a (vf am isCall (l * K) (triOp x y z a) n) (l * s)
        = l * triOp x y z a (vf am isCall K (triOp x y z a) n) s := by
      simp only [triOp_apply]
      rw [mul_assoc l s a, mul_assoc l s, ih, ih, ih]
      ring
    cases am
    · simpa [vf] using e
    · simp only [vf, if_true, e, mul_max_of_nonneg _ _ hl]
      congr 1
      cases isCall <;> simp only [intrinsic, if_true, Bool.false_eq_true, if_false] <;> ring

theorem tri_vf_nonneg (hx : 0 ≤ x) (hy : 0 ≤ y) (hz : 0 ≤ z) (am isCall : Bool) (K : ℝ) (n : ℕ) (s : ℝ) :
    0 ≤ vf am isCall K (triOp x y z a) n s := by
  induction n generalizing s with
  | zero => cases isCall <;> simp [vf, payoff]
  | succ n ih =>
    have e : 0 ≤ triOp x y z a (vf am isCall K (triOp x y z a) n) s := by
      simp only [triOp_apply]
      have i1 := mul_nonneg hx (ih (s * a))
      have i2 := mul_nonneg hy (ih s)
      have i3 := mul_nonneg hz (ih (s * a⁻¹))
      linarith
    cases am
    · simpa [vf] using e
    · simpa [vf] using Or.inr e

end

/-- C21 at every node of the returned trinomial matrices: cell `(a, i)` is the node of step `i` that is `n - a` net
moves up, and its American entry is at least the exercise value there and at least the European entry. -/
theorem C21_trinomial_nodes (o : Opt) (h : TreeValid o) (hp : |o.b| * √(o.t / o.n / 2) ≤ o.sigma) (isCall : Bool) :
    ∃ MA ME, priceTree3 { o with type := "american" } isCall = .ok MA ∧
      priceTree3 { o with type := "european" } isCall = .ok ME ∧
      ∀ i ≤ o.n, ∀ a, o.n - i ≤ a → a ≤ o.n + i → ME.entry a i ≤ MA.entry a i ∧
        intrinsic isCall (o.S * (factors3 o).u ^ (o.n - a) * (factors3 o).d ^ (a - o.n)) o.K ≤ MA.entry a i := by
  obtain ⟨V, MA, -, hV, a1, -, -, a4, -⟩ := C28_tree_american { o with type := "american" } h.n rfl isCall
  obtain ⟨W, ME, -, hW, e1, -, -, e4, -⟩ := C28_tree_european { o with type := "european" } h.n rfl isCall
  obtain ⟨h1, h2, -, h4⟩ := C24_trinomial o h
  refine ⟨MA, ME, a1, e1, fun i hi a l1 l2 => ?_⟩
  have a4' := a4 a (by show a ≤ 2 * o.n; omega) i hi
  have e4' := e4 a (by show a ≤ 2 * o.n; omega) i hi
  simp only [l1, l2, and_self, if_true] at a4' e4'
  rw [a4', e4']
  refine ⟨american3_ge_european3 hV hW (exp_pos _).le h1 (h4.2 hp) h2 i hi _ (by omega), ?_⟩
  have := american3_ge_intrinsic hV i hi (o.n + i - a) (by omega)
  rw [node3, show o.n + i - a - i = o.n - a by omega, show i - (o.n + i - a) = a - o.n by omega] at this
  exact this

/-- The two exercise styles, as records differing from `o` in spot and strike only. -/
theorem type_rec {o : Opt} {am : Bool} (ham : o.type = typeOf am) (S K : ℝ) :
    ({ o with S := S, K := K } : Opt) = { o with S := S, K := K, type := typeOf am } := by rw [← ham]

/-- C23 for the trinomial tree, in the strike: with probabilities in `[0,1]` the price is nonnegative, calls are
nonincreasing and puts nondecreasing in the strike, and for `r ≥ 0` both move by at most the change of strike. -/
theorem C23_trinomial_strike (o : Opt) (h : TreeValid o) (hp : |o.b| * √(o.t / o.n / 2) ≤ o.sigma)
    (hty : o.type = "european" ∨ o.type = "american") (K₁ K₂ : ℝ) (hK : K₁ ≤ K₂) :
    ∃ c₁ c₂ p₁ p₂, price3 { o with K := K₁ } true = .ok c₁ ∧ price3 { o with K := K₂ } true = .ok c₂ ∧
      price3 { o with K := K₁ } false = .ok p₁ ∧ price3 { o with K := K₂ } false = .ok p₂ ∧
      0 ≤ c₂ ∧ c₂ ≤ c₁ ∧ 0 ≤ p₁ ∧ p₁ ≤ p₂ ∧ (0 ≤ o.r → c₁ - c₂ ≤ K₂ - K₁ ∧ p₂ - p₁ ≤ K₂ - K₁) := by
  obtain ⟨am, ham⟩ := type_cases hty
  obtain ⟨x, y, z, a, hx, hy, hz, ha, h1, hv⟩ := price3_tri h hp
  have v : ∀ S K isCall, price3 { o with S := S, K := K } isCall = .ok (vf am isCall K (triOp x y z a) o.n S) :=
    fun S K isCall => by rw [type_rec ham]; exact hv S K am isCall
  refine ⟨_, _, _, _, v o.S K₁ true, v o.S K₂ true, v o.S K₁ false, v o.S K₂ false,
    tri_vf_nonneg hx hy hz am true K₂ o.n o.S, ?_, tri_vf_nonneg hx hy hz am false K₁ o.n o.S, ?_, fun hr => ?_⟩
  · simpa using tri_vf_mono hx hy hz ha am true (s := o.S) (s' := o.S) o.n
      (fun c _ => by simp [intrinsic]; linarith) 1 one_pos
  · simpa using tri_vf_mono hx hy hz ha am false (s := o.S) (s' := o.S) o.n
      (fun c _ => by simp [intrinsic]; linarith) 1 one_pos
  · have e1 := tri_vf_lip (a := a) hx hy hz (h1 hr) am true K₁ K₂ o.n o.S
    have e2 := tri_vf_lip (a := a) hx hy hz (h1 hr) am false K₂ K₁ o.n o.S
    rw [abs_of_nonpos (by linarith)] at e1
    rw [abs_of_nonneg (by linarith)] at e2
    constructor <;> linarith

/-- C23 for the trinomial tree, in the spot: calls are nondecreasing, puts nonincreasing. -/
theorem C23_trinomial_spot (o : Opt) (h : TreeValid o) (hp : |o.b| * √(o.t / o.n / 2) ≤ o.sigma)
    (hty : o.type = "european" ∨ o.type = "american") (S₁ S₂ : ℝ) (hS : S₁ ≤ S₂) :
    ∃ c₁ c₂ p₁ p₂, price3 { o with S := S₁ } true = .ok c₁ ∧ price3 { o with S := S₂ } true = .ok c₂ ∧
      price3 { o with S := S₁ } false = .ok p₁ ∧ price3 { o with S := S₂ } false = .ok p₂ ∧
      c₁ ≤ c₂ ∧ p₂ ≤ p₁ := by
  obtain ⟨am, ham⟩ := type_cases hty
  obtain ⟨x, y, z, a, hx, hy, hz, ha, h1, hv⟩ := price3_tri h hp
  have v : ∀ S K isCall, price3 { o with S := S, K := K } isCall = .ok (vf am isCall K (triOp x y z a) o.n S) :=
    fun S K isCall => by rw [type_rec ham]; exact hv S K am isCall
  have hm : ∀ c : ℝ, 0 < c → S₁ * c ≤ S₂ * c := fun c hc => mul_le_mul_of_nonneg_right hS hc.le
  refine ⟨_, _, _, _, v S₁ o.K true, v S₂ o.K true, v S₁ o.K false, v S₂ o.K false, ?_, ?_⟩
  · simpa using tri_vf_mono hx hy hz ha am true (K := o.K) (K' := o.K) o.n
      (fun c hc => by have := hm c hc; simp [intrinsic]; linarith) 1 one_pos
  · simpa using tri_vf_mono hx hy hz ha am false (K := o.K) (K' := o.K) o.n
      (fun c hc => by have := hm c hc; simp [intrinsic]; linarith) 1 one_pos

/-- C23 for the trinomial tree: joint convexity in spot and strike, and homogeneity. -/
theorem C23_trinomial_convex (o : Opt) (h : TreeValid o) (hp : |o.b| * √(o.t / o.n / 2) ≤ o.sigma)
    (hty : o.type = "european" ∨ o.type = "american") (isCall : Bool) (S₁ S₂ K₁ K₂ l : ℝ)
    (hl : 0 ≤ l) (hl1 : l ≤ 1) :
    ∃ v v₁ v₂, price3 { o with S := l * S₁ + (1 - l) * S₂, K := l * K₁ + (1 - l) * K₂ } isCall = .ok v ∧
      price3 { o with S := S₁, K := K₁ } isCall = .ok v₁ ∧
      price3 { o with S := S₂, K := K₂ } isCall = .ok v₂ ∧ v ≤ l * v₁ + (1 - l) * v₂ := by
  obtain ⟨am, ham⟩ := type_cases hty
  obtain ⟨x, y, z, a, hx, hy, hz, ha, h1, hv⟩ := price3_tri h hp
  have v : ∀ S K isCall, price3 { o with S := S, K := K } isCall = .ok (vf am isCall K (triOp x y z a) o.n S) :=
    fun S K isCall => by rw [type_rec ham]; exact hv S K am isCall
  exact ⟨_, _, _, v _ _ isCall, v _ _ isCall, v _ _ isCall,
    tri_vf_convex hx hy hz am isCall hl hl1 o.n S₁ S₂⟩

theorem C23_trinomial_homogeneous (o : Opt) (h : TreeValid o) (hp : |o.b| * √(o.t / o.n / 2) ≤ o.sigma)
    (hty : o.type = "european" ∨ o.type = "american") (isCall : Bool) (l : ℝ) (hl : 0 ≤ l) :
    ∃ v, price3 o isCall = .ok v ∧ price3 { o with S := l * o.S, K := l * o.K } isCall = .ok (l * v) := by
  obtain ⟨am, ham⟩ := type_cases hty
  obtain ⟨x, y, z, a, hx, hy, hz, ha, h1, hv⟩ := price3_tri h hp
  have v : ∀ S K isCall, price3 { o with S := S, K := K } isCall = .ok (vf am isCall K (triOp x y z a) o.n S) :=
    fun S K isCall => by rw [type_rec ham]; exact hv S K am isCall
  refine ⟨_, v o.S o.K isCall, ?_⟩
  rw [v _ _ isCall, tri_vf_homog am isCall hl]

/-- Example for C23: strikes 45 and 50 on the five-step American trinomial tree. -/
theorem C23_trinomial_example :
    ∃ c₁ c₂ p₁ p₂, price3 { exampleTree "american" with K := 45 } true = .ok c₁ ∧
      price3 { exampleTree "american" with K := 50 } true = .ok c₂ ∧
      price3 { exampleTree "american" with K := 45 } false = .ok p₁ ∧
      price3 { exampleTree "american" with K := 50 } false = .ok p₂ ∧
      0 ≤ c₂ ∧ c₂ ≤ c₁ ∧ 0 ≤ p₁ ∧ p₁ ≤ p₂ ∧ c₁ - c₂ ≤ 5 ∧ p₂ - p₁ ≤ 5 := by
  have hp : |(exampleTree "american").b| * √((exampleTree "american").t / (exampleTree "american").n / 2)
      ≤ (exampleTree "american").sigma := by
    have h := exampleTree_prob .crr "american" rfl
    refine le_trans (mul_le_mul_of_nonneg_left (sqrt_le_sqrt ?_) (abs_nonneg _)) h
    have : 0 ≤ (exampleTree "american").t / (exampleTree "american").n := by norm_num [exampleTree]
    linarith
  obtain ⟨c₁, c₂, p₁, p₂, h1, h2, h3, h4, h5, h6, h7, h8, h9⟩ :=
    C23_trinomial_strike (exampleTree "american") (exampleTree_valid _) hp (Or.inr rfl) 45 50 (by norm_num)
  obtain ⟨h9, h10⟩ := h9 (by norm_num [exampleTree])
  exact ⟨c₁, c₂, p₁, p₂, h1, h2, h3, h4, h5, h6, h7, h8, by linarith, by linarith⟩

end Verif.Props
