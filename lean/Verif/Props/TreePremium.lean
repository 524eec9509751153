import Verif.Props.TreeOrder

/-!
# C80: early exercise premium and put-call parity inequality of American lattice prices
-/
namespace Verif.Props
open Verif Verif.Spec Real _root_.Verif.Tree

/-- One-period discounted averages of positive underlyings with discount `D` and growth `M`. -/
structure PosLin (T : (ℝ → ℝ) → ℝ → ℝ) (D M : ℝ) : Prop where
  mono : ∀ f g, (∀ s, 0 ≤ s → f s ≤ g s) → ∀ s, 0 ≤ s → T f s ≤ T g s
  aff : ∀ f α β s, T (fun x => f x + (α * x + β)) s = T f s + (α * (D * M) * s + β * D)
  zero : ∀ s, T (fun _ => 0) s = 0

theorem posLin_bin {D p u d M : ℝ} (hD : 0 ≤ D) (h0 : 0 ≤ p) (h1 : p ≤ 1) (hu : 0 ≤ u) (hd : 0 ≤ d)
    (hM : p * u + (1 - p) * d = M) : PosLin (binOp D p u d) D M := by
  have hq : 0 ≤ 1 - p := by linarith
  refine ⟨fun f g hfg s hs => ?_, fun f α β s => ?_, fun s => ?_⟩
  · have a1 := hfg (s * u) (by positivity)
    have a2 := hfg (s * d) (by positivity)
    unfold binOp
    gcongr
  · unfold binOp; rw [← hM]; ring
  · unfold binOp; ring

section
variable {T : (ℝ → ℝ) → ℝ → ℝ} {D M K : ℝ}

/-- A European value is at least the forward value. -/
theorem vf_forward (hT : PosLin T D M) (isCall : Bool) (m : ℕ) : ∀ s, 0 ≤ s →
    (if isCall then s * (D * M) ^ m - K * D ^ m else K * D ^ m - s * (D * M) ^ m) ≤ vf false isCall K T m s := by
  induction m with
  | zero => intro s _; cases isCall <;> simp [vf, payoff]
  | succ m ih =>
    intro s hs
    have key : ∀ α β, (∀ s, 0 ≤ s → α * s + β ≤ vf false isCall K T m s) →
        α * (D * M) * s + β * D ≤ vf false isCall K T (m + 1) s := by
      intro α β h
      have h1 := hT.mono (fun x => 0 + (α * x + β)) _ (fun s hs => by simpa using h s hs) s hs
      rw [hT.aff (fun _ => 0), hT.zero, zero_add] at h1
      simpa [vf] using h1
    cases isCall
    · have := key (-(D * M) ^ m) (K * D ^ m) (fun s hs => by have := ih s hs; simp at this ⊢; linarith)
      simp only [Bool.false_eq_true, if_false]
      refine le_trans (le_of_eq ?_) this
      ring
    · have := key ((D * M) ^ m) (-(K * D ^ m)) (fun s hs => by have := ih s hs; simp at this ⊢; linarith)
      simp only [if_true]
      refine le_trans (le_of_eq ?_) this
      ring

/-- The early exercise premium is at most the interest on the strike (put), the carry on the underlying (call). -/
theorem vf_premium (hT : PosLin T D M) (hD : 0 ≤ D) (hD1 : D ≤ 1) (hM : 0 ≤ D * M) (hM1 : D * M ≤ 1) (hK : 0 ≤ K)
    (isCall : Bool) (m : ℕ) : ∀ s, 0 ≤ s →
    vf true isCall K T m s ≤ vf false isCall K T m s + (if isCall then s * (1 - (D * M) ^ m) else K * (1 - D ^ m)) := by
  induction m with
  | zero => intro s _; cases isCall <;> simp [vf]
  | succ m ih =>
    intro s hs
    have hf := vf_forward (K := K) hT isCall (m + 1) s hs
    have p1 : D ^ (m + 1) ≤ 1 := pow_le_one₀ hD hD1
    have p2 : (D * M) ^ (m + 1) ≤ 1 := pow_le_one₀ hM hM1
    have e : vf true isCall K T (m + 1) s = max (intrinsic isCall s K) (T (vf true isCall K T m) s) := by simp [vf]
    have e' : vf false isCall K T (m + 1) s = T (vf false isCall K T m) s := by simp [vf]
    rw [e]
    refine max_le ?_ ?_
    · cases isCall
      · simp only [Bool.false_eq_true, if_false, intrinsic] at hf ⊢
        nlinarith
      · simp only [if_true, intrinsic] at hf ⊢
        nlinarith
    · rw [e']
      cases isCall
      · have h1 := hT.mono (vf true false K T m) (fun x => vf false false K T m x + (0 * x + K * (1 - D ^ m)))
          (fun s hs => by have := ih s hs; simp at this ⊢; linarith) s hs
        rw [hT.aff] at h1
        simp only [Bool.false_eq_true, if_false]
        have : K * (1 - D ^ m) * D ≤ K * (1 - D ^ (m + 1)) := by
          have : K * D ≤ K := mul_le_of_le_one_right hK hD1
          rw [pow_succ]; linarith
        linarith
      · have h1 := hT.mono (vf true true K T m) (fun x => vf false true K T m x + ((1 - (D * M) ^ m) * x + 0))
          (fun s hs => by have := ih s hs; simp at this ⊢; linarith) s hs
        rw [hT.aff] at h1
        simp only [if_true]
        have : (1 - (D * M) ^ m) * (D * M) * s ≤ s * (1 - (D * M) ^ (m + 1)) := by
          have : s * (D * M) ≤ s := mul_le_of_le_one_right hs hM1
          rw [pow_succ]; linarith
        linarith
end

/-- **C80, premium.** On CRR and TIAN lattices with admissible weights, `r ≥ 0` and `b ≤ r`, early exercise adds at most
`S (1 - e^{(b-r)t})` to a call and `K (1 - e^{-rt})` to a put. -/
theorem C80_premium (c : Cls) (hc : c = .crr ∨ c = .tian) (o : Opt) (h : TreeValid o) (hp : ProbOK c o) (hS : 0 ≤ o.S)
    (hK : 0 ≤ o.K) (hr : 0 ≤ o.r) (hb : o.b ≤ o.r) (isCall : Bool) :
    ∃ A E, price c { o with type := "american" } isCall = .ok A ∧ price c { o with type := "european" } isCall = .ok E ∧
      E ≤ A ∧ A - E ≤ if isCall then o.S * (1 - exp ((o.b - o.r) * o.t)) else o.K * (1 - exp (-o.r * o.t)) := by
  obtain ⟨A, E, hA, hE, hle, -, -⟩ := C21_american_dominates c o h hp isCall
  refine ⟨A, E, hA, hE, hle, ?_⟩
  have a1 := price_vf (c := c) (o := { o with type := "american" }) (am := true) h.n rfl isCall
  have a2 := price_vf (c := c) (o := { o with type := "european" }) (am := false) h.n rfl isCall
  rw [hA] at a1
  rw [hE] at a2
  injection a1 with a1
  injection a2 with a2
  have f1 : factors c { o with type := "american" } = factors c o := by cases c <;> rfl
  have f2 : factors c { o with type := "european" } = factors c o := by cases c <;> rfl
  rw [f1] at a1
  rw [f2] at a2
  have hm : (factors c o).p * (factors c o).u + (1 - (factors c o).p) * (factors c o).d = exp (o.b * (o.t / o.n)) := by
    rcases hc with rfl | rfl
    · exact (good_crr h).mean
    · exact (good_tian h).mean
  obtain ⟨p0, p1⟩ := prob_ok h hp
  have hdt := h.dt
  have hD := Df_eq (o := o) c
  have hlin := posLin_bin (Df_nonneg (o := o) c) p0 p1 (u_nonneg c h) (d_nonneg c h) hm
  have hDM : (factors c o).Df * exp (o.b * (o.t / o.n)) = exp ((o.b - o.r) * (o.t / o.n)) := by
    rw [hD, ← exp_add]; congr 1; ring
  have key := vf_premium hlin (Df_nonneg (o := o) c) (by rw [hD, exp_le_one_iff]; nlinarith)
    (by rw [hDM]; exact (exp_pos _).le) (by rw [hDM, exp_le_one_iff]; nlinarith) hK isCall o.n o.S hS
  have hn : (o.n : ℝ) ≠ 0 := by have := h.n; positivity
  have q1 : (factors c o).Df ^ o.n = exp (-o.r * o.t) := by
    rw [hD, ← exp_nat_mul]; congr 1; field_simp
  have q2 : ((factors c o).Df * exp (o.b * (o.t / o.n))) ^ o.n = exp ((o.b - o.r) * o.t) := by
    rw [hDM, ← exp_nat_mul]; congr 1; field_simp
  rw [q1, q2] at key
  dsimp only at a1 a2
  rw [a1, a2]
  linarith

/-- **C80, parity.** American call and put prices satisfy `S e^{(b-r)t} - K ≤ C - P ≤ S - K e^{-rt}`. -/
theorem C80_parity (c : Cls) (hc : c = .crr ∨ c = .tian) (o : Opt) (h : TreeValid o) (hp : ProbOK c o) (hS : 0 ≤ o.S)
    (hK : 0 ≤ o.K) (hr : 0 ≤ o.r) (hb : o.b ≤ o.r) (hty : o.type = "american") :
    ∃ C P, price c o true = .ok C ∧ price c o false = .ok P ∧
      o.S * exp ((o.b - o.r) * o.t) - o.K ≤ C - P ∧ C - P ≤ o.S - o.K * exp (-o.r * o.t) := by
  obtain ⟨C, c', h1, h2, h3, h4⟩ := C80_premium c hc o h hp hS hK hr hb true
  obtain ⟨P, p', k1, k2, k3, k4⟩ := C80_premium c hc o h hp hS hK hr hb false
  obtain ⟨x, y, hx, hy, he⟩ := C19_parity c hc { o with type := "european" } ⟨h.t, h.sigma, h.n⟩ rfl
  have e1 : x = c' := by have := hx.symm.trans h2; injection this
  have e2 : y = p' := by have := hy.symm.trans k2; injection this
  have ho : { o with type := "american" } = o := by rcases o with ⟨⟩; simp_all
  rw [ho] at h1 k1
  subst e1 e2
  simp only [if_true] at h4
  simp only [Bool.false_eq_true, if_false] at k4
  dsimp only at he
  exact ⟨C, P, h1, k1, by linarith, by linarith⟩

/-- **C80, JR.** The JR lattice grows by `e^{(b-σ²/2)dt} cosh(σ√dt)` a step instead of `e^{b dt}`. With that growth the bound
on the premium of a call and the lower parity inequality hold; the bounds that involve the strike are unchanged. -/
theorem C80_jr (o : Opt) (h : TreeValid o) (hS : 0 ≤ o.S) (hK : 0 ≤ o.K) (hr : 0 ≤ o.r) (hb : o.b ≤ o.r) {G : ℝ}
    (hG : G = (exp ((o.b - o.sigma ^ 2 / 2 - o.r) * (o.t / o.n)) * cosh (o.sigma * √(o.t / o.n))) ^ o.n) :
    ∃ C P C' P', price .jr { o with type := "american" } true = .ok C ∧ price .jr { o with type := "american" } false = .ok P ∧
      price .jr { o with type := "european" } true = .ok C' ∧ price .jr { o with type := "european" } false = .ok P' ∧
      C' ≤ C ∧ P' ≤ P ∧ C - C' ≤ o.S * (1 - G) ∧ P - P' ≤ o.K * (1 - exp (-o.r * o.t)) ∧
      o.S * G - o.K ≤ C - P ∧ C - P ≤ o.S - o.K * exp (-o.r * o.t) := by
  have hdt := h.dt
  have hD := Df_eq (o := o) .jr
  have hm := jr_mean (o := o)
  have hn : (o.n : ℝ) ≠ 0 := by have := h.n; positivity
  have hp : ProbOK .jr o := by intro h; cases h
  obtain ⟨p0, p1⟩ := prob_ok h hp
  have hlin := posLin_bin (Df_nonneg (o := o) .jr) p0 p1 (u_nonneg .jr h) (d_nonneg .jr h) hm
  have q1 : (factors .jr o).Df ^ o.n = exp (-o.r * o.t) := by
    rw [hD, ← exp_nat_mul]; congr 1; field_simp
  have q2 : ((factors .jr o).Df * (exp ((o.b - o.sigma ^ 2 / 2) * (o.t / o.n)) * cosh (o.sigma * √(o.t / o.n)))) ^ o.n = G := by
    rw [hD, hG, ← mul_assoc, ← exp_add]
    congr 3; ring
  have hM0 : 0 ≤ (factors .jr o).Df * (exp ((o.b - o.sigma ^ 2 / 2) * (o.t / o.n)) * cosh (o.sigma * √(o.t / o.n))) := by
    rw [hD]; have := cosh_pos (o.sigma * √(o.t / o.n)); positivity
  have hM1 : (factors .jr o).Df * (exp ((o.b - o.sigma ^ 2 / 2) * (o.t / o.n)) * cosh (o.sigma * √(o.t / o.n))) ≤ 1 := by
    have h1 := cosh_le_exp_half_sq (o.sigma * √(o.t / o.n))
    rw [mul_pow, sq_sqrt hdt.le] at h1
    calc _ ≤ (factors .jr o).Df * (exp ((o.b - o.sigma ^ 2 / 2) * (o.t / o.n)) * exp (o.sigma ^ 2 * (o.t / o.n) / 2)) := by
          rw [hD]; gcongr
      _ = exp ((o.b - o.r) * (o.t / o.n)) := by rw [hD, ← exp_add, ← exp_add]; congr 1; ring
      _ ≤ 1 := by rw [exp_le_one_iff]; nlinarith
  have main : ∀ isCall, ∃ A E, price .jr { o with type := "american" } isCall = .ok A ∧
      price .jr { o with type := "european" } isCall = .ok E ∧
      E ≤ A ∧ A - E ≤ if isCall then o.S * (1 - G) else o.K * (1 - exp (-o.r * o.t)) := by
    intro isCall
    obtain ⟨A, E, hA, hE, hle, -, -⟩ := C21_american_dominates .jr o h hp isCall
    refine ⟨A, E, hA, hE, hle, ?_⟩
    have a1 := price_vf (c := .jr) (o := { o with type := "american" }) (am := true) h.n rfl isCall
    have a2 := price_vf (c := .jr) (o := { o with type := "european" }) (am := false) h.n rfl isCall
    rw [hA] at a1
    rw [hE] at a2
    injection a1 with a1
    injection a2 with a2
    have key := vf_premium hlin (Df_nonneg (o := o) .jr) (by rw [hD, exp_le_one_iff]; nlinarith) hM0 hM1 hK isCall o.n o.S hS
    rw [q1, q2] at key
    change A = vf true isCall o.K (binOp (factors .jr o).Df (factors .jr o).p (factors .jr o).u (factors .jr o).d) o.n o.S at a1
    change E = vf false isCall o.K (binOp (factors .jr o).Df (factors .jr o).p (factors .jr o).u (factors .jr o).d) o.n o.S at a2
    rw [a1, a2]
    linarith
  obtain ⟨C, C', c1, c2, c3, c4⟩ := main true
  obtain ⟨P, P', p1, p2, p3, p4⟩ := main false
  obtain ⟨x, y, hx, hy, he⟩ := C19_jr_forward { o with type := "european" } ⟨h.t, h.sigma, h.n⟩ rfl
  have e1 : x = C' := by have := hx.symm.trans c2; injection this
  have e2 : y = P' := by have := hy.symm.trans p2; injection this
  subst e1 e2
  simp only [if_true] at c4
  simp only [Bool.false_eq_true, if_false] at p4
  dsimp only at he
  refine ⟨C, P, x, y, c1, p1, c2, p2, c3, p3, c4, p4, ?_, ?_⟩ <;> rw [← hG] at he <;> linarith

/-- **C80, trinomial.** -/
theorem C80_trinomial (o : Opt) (h : TreeValid o) (hp : |o.b| * √(o.t / o.n / 2) ≤ o.sigma) (hS : 0 ≤ o.S) (hK : 0 ≤ o.K)
    (hr : 0 ≤ o.r) (hb : o.b ≤ o.r) (hty : o.type = "american") :
    ∃ C P C' P', price3 o true = .ok C ∧ price3 o false = .ok P ∧
      price3 { o with type := "european" } true = .ok C' ∧ price3 { o with type := "european" } false = .ok P' ∧
      C - C' ≤ o.S * (1 - exp ((o.b - o.r) * o.t)) ∧ P - P' ≤ o.K * (1 - exp (-o.r * o.t)) ∧
      o.S * exp ((o.b - o.r) * o.t) - o.K ≤ C - P ∧ C - P ≤ o.S - o.K * exp (-o.r * o.t) := by
  have h2 : TreeValid { o with n := 2 * o.n } := ⟨h.t, h.sigma, by show 0 < 2 * o.n; have := h.n; omega⟩
  have hdt : o.t / ((2 * o.n : ℕ) : ℝ) = o.t / o.n / 2 := by push_cast; field_simp
  have hpo : ProbOK .crr { o with n := 2 * o.n } := by
    intro _; show |o.b| * √(o.t / ((2 * o.n : ℕ) : ℝ)) ≤ o.sigma; rwa [hdt]
  have ho : { o with type := "american" } = o := by rcases o with ⟨⟩; simp_all
  have main : ∀ isCall, ∃ A E, price3 o isCall = .ok A ∧ price3 { o with type := "european" } isCall = .ok E ∧
      E ≤ A ∧ A - E ≤ if isCall then o.S * (1 - exp ((o.b - o.r) * o.t)) else o.K * (1 - exp (-o.r * o.t)) := by
    intro isCall
    obtain ⟨A, E, a1, a2, a3, -⟩ := C21_trinomial o h hp isCall
    rw [ho] at a1
    obtain ⟨x, y, b1, b2, b3⟩ := C25_trinomial_american_le o h hp hty isCall
    obtain ⟨A', E', d1, d2, -, d4⟩ := C80_premium .crr (Or.inl rfl) { o with n := 2 * o.n } h2 hpo hS hK hr hb isCall
    have e := C25_trinomial_eq_crr { o with type := "european" } ⟨h.t, h.sigma, h.n⟩ rfl isCall
    have o1 : ({ o with n := 2 * o.n, type := "american" } : Opt) = { o with n := 2 * o.n } := by rcases o with ⟨⟩; simp_all
    have i1 : x = A := by have := b1.symm.trans a1; injection this
    have i2 : A' = y := by
      have := d1.symm.trans ((congrArg (fun q => price .crr q isCall) o1).trans b2)
      injection this
    have i3 : E' = E := by
      have := d2.symm.trans (e.symm.trans a2)
      injection this
    subst i1 i2 i3
    exact ⟨x, E', a1, a2, a3, by dsimp only at d4; linarith⟩
  obtain ⟨C, C', c1, c2, c3, c4⟩ := main true
  obtain ⟨P, P', p1, p2, p3, p4⟩ := main false
  obtain ⟨x, y, hx, hy, he⟩ := C19_trinomial_parity { o with type := "european" } ⟨h.t, h.sigma, h.n⟩ rfl
  have e1 : x = C' := by have := hx.symm.trans c2; injection this
  have e2 : y = P' := by have := hy.symm.trans p2; injection this
  subst e1 e2
  simp only [if_true] at c4
  simp only [Bool.false_eq_true, if_false] at p4
  dsimp only at he
  exact ⟨C, P, x, y, c1, p1, c2, p2, c4, p4, by linarith, by linarith⟩

/-- The parity inequality cannot be sharpened to the European equality: with `S = 0` and `r > 0` the put is exercised at
once, and the left inequality is an equality. -/
theorem C80_sharp (o : Opt) (h : TreeValid o) (hp : ProbOK .crr o) (hS : o.S = 0) (hK : 0 ≤ o.K) (hr : 0 ≤ o.r)
    (hb : o.b ≤ o.r) (hty : o.type = "american") :
    ∃ C P, price .crr o true = .ok C ∧ price .crr o false = .ok P ∧ C = 0 ∧ P = o.K := by
  obtain ⟨C, P, h1, h2, h3, h4⟩ := C80_parity .crr (Or.inl rfl) o h hp hS.ge hK hr hb hty
  obtain ⟨A, E, a1, a2, a3, a4⟩ := C80_premium .crr (Or.inl rfl) o h hp hS.ge hK hr hb true
  have ho : { o with type := "american" } = o := by rcases o with ⟨⟩; simp_all
  rw [ho] at a1
  have i1 : A = C := by have := a1.symm.trans h1; injection this
  obtain ⟨A', E', b1, b2, b3, b4, b5⟩ := C21_american_dominates .crr o h hp false
  rw [ho] at b1
  have i2 : A' = P := by have := b1.symm.trans h2; injection this
  obtain ⟨A2, E2, d1, d2, d3, d4, d5⟩ := C21_american_dominates .crr o h hp true
  rw [ho] at d1
  have i3 : A2 = C := by have := d1.symm.trans h1; injection this
  have i4 : E2 = E := by have := d2.symm.trans a2; injection this
  subst i1 i2 i3 i4
  -- the European call on a worthless underlying is worthless
  have hE : E2 = 0 := by
    have a2' := european_price .crr { o with type := "european" } h.n rfl true
    rw [d2] at a2'
    injection a2' with a2'
    rw [a2']
    unfold binomialExpectation
    rw [Finset.sum_eq_zero, mul_zero]
    intro k _
    have : payoff true (node o.S (factors .crr { o with type := "european" }).u
      (factors .crr { o with type := "european" }).d o.n k) o.K = 0 := by
      simp only [payoff, if_true, node, hS, zero_mul, zero_sub]
      exact max_eq_right (by linarith)
    dsimp only
    rw [this, mul_zero]
  simp only [if_true, hS, zero_mul, sub_nonpos, zero_sub] at a4 h3
  simp only [intrinsic, Bool.false_eq_true, if_false, hS, sub_zero] at b4
  exact ⟨A2, A', h1, h2, by linarith, by linarith⟩

theorem C80_example (c : Cls) (hc : c = .crr ∨ c = .tian) : ∃ C P, price c (exampleTree "american") true = .ok C ∧
    price c (exampleTree "american") false = .ok P ∧
    (exampleTree "american").S * exp (((exampleTree "american").b - (exampleTree "american").r) * (exampleTree "american").t)
      - (exampleTree "american").K ≤ C - P := by
  obtain ⟨C, P, h1, h2, h3, -⟩ := C80_parity c hc (exampleTree "american") (exampleTree_valid _) (exampleTree_prob c _)
    (by norm_num [exampleTree]) (by norm_num [exampleTree]) (by norm_num [exampleTree]) (by norm_num [exampleTree]) rfl
  exact ⟨C, P, h1, h2, h3⟩

end Verif.Props
