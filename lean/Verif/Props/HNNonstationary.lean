import Verif.Props.HNObj

/-!
C137 — Heston–Nandi options whose risk-neutral process is not stationary: the coded stationary variance is negative, the
prices are computed all the same, and the integrals in them do not converge.
-/
namespace Verif.Props
open Verif Verif.HN Real MeasureTheory Set Filter Topology

/-- An oscillation with a growing amplitude has no improper integral. -/
theorem growing_diverges {A c m : ℝ} (hA : 0 < A) (hc : 0 < c) (hm : m ≠ 0) :
    ¬ ∃ L, Tendsto (fun T => ∫ u in (1 : ℝ)..T, A * exp (c * u ^ 2) * sin (m * u) / u) atTop (𝓝 L) := by
  -- positive frequency
  have pos : ∀ m : ℝ, 0 < m →
      ¬ ∃ L, Tendsto (fun T => ∫ u in (1 : ℝ)..T, A * exp (c * u ^ 2) * sin (m * u) / u) atTop (𝓝 L) := by
    rintro m hm ⟨L, hL⟩
    have cont : ContinuousOn (fun u : ℝ => A * exp (c * u ^ 2) * sin (m * u) / u) (Ici 1) := by
      refine ContinuousOn.div (by fun_prop) continuousOn_id fun u hu => ?_
      have : (1 : ℝ) ≤ u := hu
      show u ≠ 0
      linarith
    have ii : ∀ x y : ℝ, 1 ≤ x → 1 ≤ y → IntervalIntegrable (fun u => A * exp (c * u ^ 2) * sin (m * u) / u) volume x y := by
      intro x y hx hy
      refine (cont.mono fun u hu => ?_).intervalIntegrable
      exact (le_min hx hy).trans hu.1
    let a : ℕ → ℝ := fun k => 2 * π * k / m
    let b : ℕ → ℝ := fun k => 2 * π * k / m + π / m
    have ta : Tendsto a atTop atTop := by
      have : Tendsto (fun k : ℕ => (2 * π / m) * (k : ℝ)) atTop atTop :=
        tendsto_natCast_atTop_atTop.const_mul_atTop (by positivity)
      refine this.congr fun k => ?_
      simp only [a]; ring
    have tb : Tendsto b atTop atTop := ta.atTop_add tendsto_const_nhds
    have hd := (hL.comp tb).sub (hL.comp ta)
    rw [sub_self] at hd
    have low : ∀ᶠ k in atTop, A * c * (2 / m) ≤
        ((fun T => ∫ u in (1 : ℝ)..T, A * exp (c * u ^ 2) * sin (m * u) / u) ∘ b) k
          - ((fun T => ∫ u in (1 : ℝ)..T, A * exp (c * u ^ 2) * sin (m * u) / u) ∘ a) k := by
      filter_upwards [ta.eventually_ge_atTop 1] with k hk
      have hab : a k ≤ b k := by
        simp only [a, b]
        have : 0 < π / m := by positivity
        linarith
      simp only [Function.comp]
      rw [intervalIntegral.integral_interval_sub_left (ii 1 (b k) le_rfl (hk.trans hab)) (ii 1 (a k) le_rfl hk)]
      have e : ∫ u in (a k)..(b k), A * c * sin (m * u) = A * c * (2 / m) := by
        rw [intervalIntegral.integral_const_mul, intervalIntegral.integral_comp_mul_left (fun x => sin x) hm.ne', integral_sin]
        have e1 : m * a k = 2 * π * k := by simp only [a]; field_simp
        have e2 : m * b k = π + k * (2 * π) := by simp only [b]; field_simp; ring
        rw [e1, e2, cos_add_nat_mul_two_pi, cos_pi, show 2 * π * (k : ℝ) = k * (2 * π) by ring, cos_nat_mul_two_pi, smul_eq_mul]
        ring
      rw [← e]
      refine intervalIntegral.integral_mono_on hab (by apply Continuous.intervalIntegrable; fun_prop) (ii _ _ hk (hk.trans hab)) ?_
      intro u hu
      have hu1 : 1 ≤ u := hk.trans hu.1
      have hs : 0 ≤ sin (m * u) := by
        have : sin (m * u) = sin (m * u - k * (2 * π)) := (sin_sub_nat_mul_two_pi _ _).symm
        rw [this]
        refine sin_nonneg_of_nonneg_of_le_pi ?_ ?_
        · have := mul_le_mul_of_nonneg_left hu.1 hm.le
          have e1 : m * a k = 2 * π * k := by simp only [a]; field_simp
          linarith
        · have := mul_le_mul_of_nonneg_left hu.2 hm.le
          have e2 : m * b k = π + k * (2 * π) := by simp only [b]; field_simp; ring
          linarith
      have hexp : c * u ≤ exp (c * u ^ 2) / u := by
        rw [le_div_iff₀ (by linarith)]
        have := add_one_le_exp (c * u ^ 2)
        nlinarith
      have hcu : c ≤ exp (c * u ^ 2) / u := by nlinarith
      calc A * c * sin (m * u) = A * sin (m * u) * c := by ring
        _ ≤ A * sin (m * u) * (exp (c * u ^ 2) / u) := mul_le_mul_of_nonneg_left hcu (by positivity)
        _ = A * exp (c * u ^ 2) * sin (m * u) / u := by ring
    have := ge_of_tendsto hd low
    have : 0 < A * c * (2 / m) := by positivity
    linarith
  rcases lt_or_gt_of_ne hm with h | h
  · rintro ⟨L, hL⟩
    refine pos (-m) (by linarith) ⟨-L, hL.neg.congr fun T => ?_⟩
    rw [← intervalIntegral.integral_neg]
    congr 1
    funext u
    rw [neg_mul, sin_neg]
    ring
  · exact pos m h

/-- The integrands for at most one day. -/
theorem fstarHN_one (p : HN.Par) (S K r phi : ℝ) {t : ℤ} (ht : t ≤ 1) {σ2 : ℝ}
    (h2 : σ2 = (p.omega + p.alpha) / (1 - p.beta - p.alpha * (p.gamma + p.lamb + 1 / 2) ^ 2)) {s : ℝ} (hs : s = 0 ∨ s = 1) :
    HN.fstarHN phi s p S K t r = exp (s * (log S + r)) / π * exp (-σ2 / 2 * phi ^ 2)
      * sin ((log S - log K + r + (s - 1 / 2) * σ2) * phi) / phi := by
  have hr : (t - 1).toNat = 0 := by omega
  simp only [HN.fstarHN, HN.coef, hr, List.range_zero, List.foldl_nil]
  rw [← h2]
  have e : -(↑phi * Complex.I) * ((log K : ℝ) : ℂ) + (↑phi * Complex.I + (s : ℂ)) * ((log S : ℝ) : ℂ)
        + (↑phi * Complex.I + (s : ℂ)) * (r : ℂ)
        + (((-1 / 2 : ℝ) : ℂ) * (↑phi * Complex.I + (s : ℂ))
          + (↑phi * Complex.I + (s : ℂ)) * (↑phi * Complex.I + (s : ℂ)) / 2) * (σ2 : ℂ)
      = ((s * (log S + r) + -σ2 / 2 * phi ^ 2 : ℝ) : ℂ)
        + (((log S - log K + r + (s - 1 / 2) * σ2) * phi : ℝ) : ℂ) * Complex.I := by
    have hI : Complex.I ^ 2 = -1 := Complex.I_sq
    have hss : (s : ℂ) ^ 2 = s := by rcases hs with rfl | rfl <;> norm_num
    push_cast
    linear_combination (phi ^ 2 * σ2 / 2 : ℂ) * hI + (σ2 / 2 : ℂ) * hss
  rw [e, Complex.exp_add, ← Complex.ofReal_exp, Complex.exp_mul_I, ← Complex.ofReal_cos, ← Complex.ofReal_sin]
  generalize cos ((log S - log K + r + (s - 1 / 2) * σ2) * phi) = cc
  generalize sin ((log S - log K + r + (s - 1 / 2) * σ2) * phi) = ss
  rw [exp_add]
  generalize exp (s * (log S + r)) = A
  generalize exp (-σ2 / 2 * phi ^ 2) = B
  have : ((A * B : ℝ) : ℂ) * (↑cc + ↑ss * Complex.I) / (↑phi * Complex.I)
      = ((A * B * ss / phi : ℝ) : ℂ) - ((A * B * cc / phi : ℝ) : ℂ) * Complex.I := by
    by_cases hp : phi = 0
    · subst hp; simp
    · have hp' : (phi : ℂ) ≠ 0 := by exact_mod_cast hp
      have hI : Complex.I ^ 2 = -1 := Complex.I_sq
      push_cast
      field_simp
      linear_combination (A * B * cc : ℂ) * hI
  rw [this]
  simp only [Complex.sub_re, Complex.ofReal_re, Complex.re_ofReal_mul, Complex.I_re, mul_zero, sub_zero]
  ring

/-- **C137, refuted.** If the risk-neutral persistence `beta + alpha (gamma + lamb + 1/2)^2` exceeds one, all methods return a
number, whatever `quad` returns, … -/
theorem C137_accepted_fails (quad : (ℝ → ℝ) → ℝ) (S K : ℝ) (n : ℤ) (r : ℝ) (p : HN.Par) (model : Option HN.Par) (isCall : Bool)
    (hp : 1 < p.beta + p.alpha * (p.gamma + p.lamb + 1 / 2) ^ 2) :
    let o := Obj.new S K (.int n) r (some p.lamb) (some p.omega) (some p.alpha) (some p.beta) (some p.gamma) model
    (∃ c, o.call quad = .ok c) ∧ (∃ x, o.put quad = .ok x) ∧ (∃ d, o.delta quad isCall = .ok d) ∧
      ∃ g, o.gammaGreek quad = .ok g := by
  obtain ⟨h1, h2, h3, h4⟩ := C89_values_partial quad S K n r p model isCall (by linarith)
  exact ⟨⟨_, h1⟩, ⟨_, h2⟩, ⟨_, h3⟩, ⟨_, h4⟩⟩

/-- **C137, refuted.** … although for one day, whatever spot, strike and rate, one of the two integrals in the price does not
converge. -/
theorem C137_diverges_fails (p : HN.Par) (hω : 0 < p.omega) (hα : 0 ≤ p.alpha)
    (hp : 1 < p.beta + p.alpha * (p.gamma + p.lamb + 1 / 2) ^ 2) (S K r : ℝ) :
    ∃ s : ℝ, (s = 0 ∨ s = 1) ∧
      (¬ ∃ L, Tendsto (fun T => ∫ u in (1 : ℝ)..T, HN.fstarHN u s p S K 1 r) atTop (𝓝 L)) ∧
      ¬ IntegrableOn (fun u => HN.fstarHN u s p S K 1 r) (Ioi 0) := by
  set σ2 := (p.omega + p.alpha) / (1 - p.beta - p.alpha * (p.gamma + p.lamb + 1 / 2) ^ 2) with h2
  have hneg : σ2 < 0 := div_neg_of_pos_of_neg (by linarith) (by linarith)
  have key : ∀ s : ℝ, (s = 0 ∨ s = 1) → log S - log K + r + (s - 1 / 2) * σ2 ≠ 0 →
      (¬ ∃ L, Tendsto (fun T => ∫ u in (1 : ℝ)..T, HN.fstarHN u s p S K 1 r) atTop (𝓝 L)) ∧
      ¬ IntegrableOn (fun u => HN.fstarHN u s p S K 1 r) (Ioi 0) := by
    intro s hs hm
    have d : ¬ ∃ L, Tendsto (fun T => ∫ u in (1 : ℝ)..T, HN.fstarHN u s p S K 1 r) atTop (𝓝 L) := by
      have := growing_diverges (A := exp (s * (log S + r)) / π) (c := -σ2 / 2) (by positivity) (by linarith) hm
      simpa only [fstarHN_one p S K r _ le_rfl h2 hs] using this
    refine ⟨d, fun hi => d ⟨_, intervalIntegral_tendsto_integral_Ioi 1 (hi.mono_set (Ioi_subset_Ioi zero_le_one)) tendsto_id⟩⟩
  by_cases h : log S - log K + r + (0 - 1 / 2) * σ2 = 0
  · refine ⟨1, .inr rfl, key 1 (.inr rfl) ?_⟩
    intro h'
    have : σ2 = 0 := by linarith
    exact hneg.ne this
  · exact ⟨0, .inl rfl, key 0 (.inl rfl) h⟩

/-- **C137.** With a persistence of exactly one the methods raise `ZeroDivisionError`. -/
theorem C137_unit_root (quad : (ℝ → ℝ) → ℝ) (S K : ℝ) (t : Days) (r : ℝ) (p : HN.Par) (model : Option HN.Par) (isCall : Bool)
    (hp : p.beta + p.alpha * (p.gamma + p.lamb + 1 / 2) ^ 2 = 1) :
    let o := Obj.new S K t r (some p.lamb) (some p.omega) (some p.alpha) (some p.beta) (some p.gamma) model
    o.call quad = .error .zeroDivision ∧ o.put quad = .error .zeroDivision ∧ o.delta quad isCall = .error .zeroDivision ∧
      o.gammaGreek quad = .error .zeroDivision := by
  have h : (Obj.new S K t r (some p.lamb) (some p.omega) (some p.alpha) (some p.beta) (some p.gamma)
      model).prepare = .error .zeroDivision := by
    simp only [Obj.prepare, Obj.new, HN.num, Bind.bind, Except.bind]
    rw [if_pos (by linarith)]
    rfl
  simp only [Obj.call, Obj.put, Obj.delta, Obj.gammaGreek, h, Bind.bind, Except.bind]
  trivial

/-- **C137.** Below one the integrals of the price converge (absolutely) for every number of days, so the condition on the
persistence is sharp. -/
theorem C137_stationary {p : HN.Par} (hp : ValidHN p) (S K r : ℝ) {t : ℕ} (ht : 0 < t) {s : ℝ} (hs : s = 0 ∨ s = 1) :
    IntegrableOn (fun u => HN.fstarHN u s p S K t r) (Ioi 0) := by
  obtain ⟨n, rfl⟩ : ∃ n, t = n + 1 := ⟨t - 1, by omega⟩
  simp only [fstarHN_eq]
  exact (HN.integrableOn_F_im hp.omega hp.alpha hp.beta hs hp.le_variance n (Real.log S) (Real.log K)).div_const _

/-- Non-vacuity: parameters that are stationary for the returns (`beta + alpha gamma^2 = 0.79`) but not after the change of
measure (persistence 1.6). -/
theorem C137_example (S K r : ℝ) : (0.7 : ℝ) + 9e-6 * 100 ^ 2 < 1 ∧
    (∃ c, (Obj.new S K (.int 1) r (some 216.5) (some 8e-5) (some 9e-6) (some 0.7) (some 100) none).call exactQuad = .ok c) ∧
    ∃ s : ℝ, (s = 0 ∨ s = 1) ∧ ¬ IntegrableOn (fun u => HN.fstarHN u s ⟨216.5, 8e-5, 9e-6, 0.7, 100⟩ S K 1 r) (Ioi 0) := by
  have h : (1 : ℝ) < 0.7 + 9e-6 * (100 + 216.5 + 1 / 2) ^ 2 := by norm_num
  refine ⟨by norm_num, (C137_accepted_fails exactQuad S K 1 r ⟨216.5, 8e-5, 9e-6, 0.7, 100⟩ none true h).1, ?_⟩
  obtain ⟨s, hs, -, hi⟩ := C137_diverges_fails ⟨216.5, 8e-5, 9e-6, 0.7, 100⟩ (by norm_num) (by norm_num) h S K r
  exact ⟨s, hs, hi⟩

end Verif.Props
