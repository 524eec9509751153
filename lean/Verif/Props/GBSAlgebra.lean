import Verif.Lemmas.CND

/-!
C01, C04, C05 — exact identities of the code's GBS prices and greeks.
-/
namespace Verif.Props
open Real

/-- C01. Put–call parity of every constructed option: both prices exist and differ by the forward
value. The code's approximate `_CND` is used as is. -/
theorem C01_gbs_parity (S K t r b σ : ℝ) :
    ∃ c p, (GBS.new S K t r b (some σ)).call = .ok c ∧ (GBS.new S K t r b (some σ)).put = .ok p ∧
      c - p = S * exp ((b - r) * t) - K * exp (-r * t) := by
  refine ⟨_, _, rfl, rfl, ?_⟩
  simp only [CND_neg, GBS.new]; ring

/-- C01. Parity does not depend on how the object was reached: it holds in every object state in
which both prices are numbers. -/
theorem C01_gbs_parity_any_state (o : GBS) (c p : ℝ) (hc : o.call = .ok c) (hp : o.put = .ok p) :
    c - p = o.S * exp ((o.b - o.r) * o.t) - o.K * exp (-o.r * o.t) := by
  rcases o with ⟨S, K, t, r, b, σ, d1, d2⟩
  rcases σ with _ | σ <;> rcases d1 with _ | d1 <;> rcases d2 with _ | d2 <;>
    simp [GBS.call, GBS.put, GBS.checkSigma, GBS.attr, bind, Except.bind, pure, Except.pure]
      at hc hp
  subst hc hp
  simp only [CND_neg]; ring

/-- C04. Delta of call and put differ by the discounted carry factor. -/
theorem C04_delta (S K t r b σ : ℝ) :
    ∃ c p, (GBS.new S K t r b (some σ)).delta true = .ok c ∧
      (GBS.new S K t r b (some σ)).delta false = .ok p ∧ c - p = exp ((b - r) * t) := by
  refine ⟨_, _, rfl, rfl, ?_⟩
  simp only [GBS.new]; ring

/-- C04. Theta of call and put differ by minus the time derivative of the parity line
`S e^{(b-r)t} - K e^{-rt}`. -/
theorem C04_theta (S K t r b σ : ℝ) :
    ∃ c p, (GBS.new S K t r b (some σ)).theta true = .ok c ∧
      (GBS.new S K t r b (some σ)).theta false = .ok p ∧
      HasDerivAt (fun u => S * exp ((b - r) * u) - K * exp (-r * u)) (-(c - p)) t := by
  refine ⟨_, _, rfl, rfl, ?_⟩
  have h1 : HasDerivAt (fun u : ℝ => exp ((b - r) * u)) (exp ((b - r) * t) * (b - r)) t := by
    simpa using ((hasDerivAt_id t).const_mul (b - r)).exp
  have h2 : HasDerivAt (fun u : ℝ => exp (-r * u)) (exp (-r * t) * (-r)) t := by
    simpa using ((hasDerivAt_id t).const_mul (-r)).exp
  refine HasDerivAt.congr_deriv ((h1.const_mul S).sub (h2.const_mul K)) ?_
  simp only [GBS.new, CND_neg]; ring

/-- C04. For `b ≠ 0`, rho of call and put differ by the derivative of the parity line when `r` and `b`
move together. -/
theorem C04_rho (S K t r b σ : ℝ) (hb : b ≠ 0) :
    ∃ c p, (GBS.new S K t r b (some σ)).rho true = .ok c ∧
      (GBS.new S K t r b (some σ)).rho false = .ok p ∧
      HasDerivAt (fun h => S * exp (((b + h) - (r + h)) * t) - K * exp (-(r + h) * t)) (c - p) 0 := by
  refine ⟨t * K * exp (-r * t) * CND (GBS.d2Expr (GBS.d1Expr S K t b σ) σ t),
    -t * K * exp (-r * t) * CND (-(GBS.d2Expr (GBS.d1Expr S K t b σ) σ t)), ?_, ?_, ?_⟩
  · simp [GBS.rho, GBS.new, GBS.call, GBS.checkSigma, GBS.attr, hb, bind, Except.bind, pure,
      Except.pure]
  · simp [GBS.rho, GBS.new, GBS.put, GBS.checkSigma, GBS.attr, hb, bind, Except.bind, pure,
      Except.pure]
  have h2 : HasDerivAt (fun h : ℝ => exp (-(r + h) * t)) (exp (-(r + 0) * t) * (-1 * t)) 0 := by
    have := (((hasDerivAt_id (0 : ℝ)).const_add r).neg.mul_const t).exp
    simpa using this
  have h1 : (fun h : ℝ => S * exp (((b + h) - (r + h)) * t) - K * exp (-(r + h) * t))
      = fun h => S * exp ((b - r) * t) - K * exp (-(r + h) * t) := by
    funext h; rw [show (b + h) - (r + h) = b - r by ring]
  rw [h1]
  refine HasDerivAt.congr_deriv ((h2.const_mul K).const_sub _) ?_
  simp only [CND_neg, add_zero]; ring

/-- C04. For `b = 0`, rho of call and put differ by the derivative of the parity line in `r`, with `b`
fixed. -/
theorem C04_rho_futures (S K t r σ : ℝ) :
    ∃ c p, (GBS.new S K t r 0 (some σ)).rho true = .ok c ∧
      (GBS.new S K t r 0 (some σ)).rho false = .ok p ∧
      HasDerivAt (fun h => S * exp ((0 - h) * t) - K * exp (-h * t)) (c - p) r := by
  obtain ⟨c, p, hc, hp, hcp⟩ := C01_gbs_parity S K t r 0 σ
  refine ⟨-t * c, -t * p, ?_, ?_, ?_⟩
  · simp [GBS.rho, bind, Except.bind, pure, Except.pure, GBS.new, GBS.checkSigma]
    simp [GBS.new] at hc
    rw [hc]
  · simp [GBS.rho, bind, Except.bind, pure, Except.pure, GBS.new, GBS.checkSigma]
    simp [GBS.new] at hp
    rw [hp]
  have h2 : HasDerivAt (fun h : ℝ => exp (-h * t)) (exp (-r * t) * (-1 * t)) r := by
    have := ((hasDerivAt_id r).neg.mul_const t).exp
    simpa using this
  simp only [zero_sub] at hcp ⊢
  refine HasDerivAt.congr_deriv ((h2.const_mul S).sub (h2.const_mul K)) ?_
  linear_combination t * hcp

/-- C04. Cost-of-carry sensitivities of call and put differ by the `b` derivative of the parity line. -/
theorem C04_c_of_c (S K t r b σ : ℝ) :
    ∃ c p, (GBS.new S K t r b (some σ)).cOfC true = .ok c ∧
      (GBS.new S K t r b (some σ)).cOfC false = .ok p ∧
      HasDerivAt (fun h => S * exp ((h - r) * t) - K * exp (-r * t)) (c - p) b := by
  refine ⟨_, _, rfl, rfl, ?_⟩
  have h1 : HasDerivAt (fun h : ℝ => exp ((h - r) * t)) (exp ((b - r) * t) * (1 * t)) b := by
    have := (((hasDerivAt_id b).sub_const r).mul_const t).exp
    simpa using this
  refine HasDerivAt.congr_deriv ((h1.const_mul S).sub_const (K * exp (-r * t))) ?_
  simp only [GBS.new, CND_neg]; ring

/-- C04. Lambda is the elasticity `delta * S / price` of the same option, for calls and puts. -/
theorem C04_lambda (o : GBS) (isCall : Bool) (l : ℝ) (h : o.lamb isCall = .ok l) :
    ∃ d pr, o.delta isCall = .ok d ∧ o.price isCall = .ok pr ∧ l = d * o.S / pr := by
  rcases o with ⟨S, K, t, r, b, σ, d1, d2⟩
  rcases isCall <;> rcases σ with _ | σ <;> rcases d1 with _ | d1 <;> rcases d2 with _ | d2 <;>
    simp [GBS.lamb, GBS.delta, GBS.price, GBS.call, GBS.put, GBS.checkSigma, GBS.attr, bind,
      Except.bind, pure, Except.pure] at h ⊢
  all_goals exact h.symm

/-- C05. Scaling spot and strike scales both prices. -/
theorem C05_homogeneous (S K t r b σ l : ℝ) (isCall : Bool) (hl : 0 < l) :
    ∃ x y, (GBS.new (l * S) (l * K) t r b (some σ)).price isCall = .ok x ∧
      (GBS.new S K t r b (some σ)).price isCall = .ok y ∧ x = l * y := by
  cases isCall <;> refine ⟨_, _, rfl, rfl, ?_⟩ <;>
    simp only [GBS.new, GBS.d1Expr, mul_div_mul_left _ _ hl.ne'] <;> ring_nf

/-- C05. Delta does not change when spot and strike are scaled. -/
theorem C05_delta_homogeneous (S K t r b σ l : ℝ) (isCall : Bool) (hl : 0 < l) :
    (GBS.new (l * S) (l * K) t r b (some σ)).delta isCall
      = (GBS.new S K t r b (some σ)).delta isCall := by
  simp only [GBS.new, GBS.delta, GBS.d1Expr, mul_div_mul_left _ _ hl.ne', GBS.checkSigma]

/-- C05. Put–call duality: a put on `(S, K, r, b)` is a call on `(K, S, r - b, -b)`. -/
theorem C05_duality (S K t r b σ : ℝ) (hS : 0 < S) (hK : 0 < K) (ht : 0 < t) (hσ : 0 < σ) :
    ∃ p, (GBS.new S K t r b (some σ)).put = .ok p ∧
      (GBS.new K S t (r - b) (-b) (some σ)).call = .ok p := by
  refine ⟨_, rfl, ?_⟩
  have hs : √t ≠ 0 := (sqrt_pos.2 ht).ne'
  have htt : √t * √t = t := mul_self_sqrt ht.le
  have e1 : GBS.d1Expr K S t (-b) σ = -(GBS.d2Expr (GBS.d1Expr S K t b σ) σ t) := by
    unfold GBS.d1Expr GBS.d2Expr
    rw [log_div hS.ne' hK.ne', log_div hK.ne' hS.ne']
    field_simp
    rw [show √t ^ 2 = t by rw [sq, htt]]; ring
  have e2 : GBS.d2Expr (GBS.d1Expr K S t (-b) σ) σ t = -(GBS.d1Expr S K t b σ) := by
    rw [e1]; unfold GBS.d2Expr; ring
  simp only [GBS.call, GBS.new, GBS.checkSigma, GBS.attr, bind, Except.bind, pure, Except.pure, e2]
  rw [e1]
  congr 1
  rw [show (-b - (r - b)) * t = -r * t by ring, show -(r - b) * t = (b - r) * t by ring]

/-- Non-vacuity: a concrete option satisfies the hypotheses used above, and its price is not zero by
accident of the model (the two prices differ). -/
example : ∃ c p, (GBS.new 10 8 1 0.02 0.01 (some 0.1)).call = .ok c ∧
    (GBS.new 10 8 1 0.02 0.01 (some 0.1)).put = .ok p ∧ c ≠ p := by
  obtain ⟨c, p, hc, hp, h⟩ := C01_gbs_parity 10 8 1 0.02 0.01 0.1
  refine ⟨c, p, hc, hp, fun hcp => ?_⟩
  rw [hcp, sub_self] at h
  have h1 : (1:ℝ) - 0.01 ≤ exp ((0.01 - 0.02) * 1) := by
    have := add_one_le_exp ((0.01 - 0.02 : ℝ) * 1); linarith
  have h2 : exp (-0.02 * 1 : ℝ) ≤ 1 := exp_le_one_iff.2 (by norm_num)
  linarith

end Verif.Props
