import Verif.Lemmas.RGWShape
import Verif.Props.RGWAccuracy

/-!
C119: bounds on the Roll–Geske–Whaley price and the direction in which it moves with its parameters.
-/
namespace Verif.Props
open Verif Verif.Spec Real MeasureTheory ProbabilityTheory

/-- The error bound of C75: tolerance of the search and of the two normal approximations; `I` is the critical price. -/
noncomputable def rgwTol (o : RGW) (I : ℝ) : ℝ :=
  exp (-o.r * o.td) * (1e-5 + 7.5e-8 * (I + 1e-5 + o.K * exp (-o.r * (o.t - o.td)))) +
    (3.325e-6 * (o.S - o.D * exp (-o.r * o.td)) + 3.25e-6 * (o.K * exp (-o.r * o.t))
      + 7.5e-8 * ((o.K - o.D) * exp (-o.r * o.td)))

/-- Contracts considered: positive spot (also without the dividend), strike and volatility, a dividend of at most the
strike paid before expiry, and a spot whose doublings miss `1e8`. -/
structure RGWValid (o : RGW) (σ : ℝ) : Prop where
  sig : o.sigma = some σ
  vol : 0 < σ
  S : 0 < o.S
  x : 0 < o.S - o.D * exp (-o.r * o.td)
  K : 0 < o.K
  td : 0 < o.td
  t : o.td < o.t
  D : o.D ≤ o.K
  big : ∀ n : ℕ, o.S * 2 ^ n ≠ 100000000

/-- `I` is the critical price found by `call()`, or zero if there is nothing to find. -/
def CriticalPrice (o : RGW) (σ I : ℝ) : Prop :=
  (o.D ≤ o.K * (1 - exp (-o.r * (o.t - o.td))) ∧ I = 0) ∨
    (0 < I ∧ RGW.Search (fun s => gbsCallNum s o.K (o.t - o.td) o.r o.r σ) o.S o.D o.K (.ok I))

/-- Value of the contract. -/
noncomputable def rgwValue (o : RGW) (σ : ℝ) : ℝ := dividendCall (o.S - o.D * exp (-o.r * o.td)) o.K o.t o.td o.r o.D σ

/-- Both cases of C75 in one statement. -/
theorem rgw_near {o : RGW} {σ v : ℝ} (h : RGWValid o σ) (hv : o.Call (.ok v)) :
    ∃ I, CriticalPrice o σ I ∧ |v - rgwValue o σ| ≤ rgwTol o I := by
  obtain ⟨S, K, t, td, r, D, s⟩ := o
  obtain ⟨h1, h2, h3, h4, h5, h6, h7, h8, h9⟩ := h
  simp only at h1 h3 h4 h5 h6 h7 h8 h9
  subst h1
  rcases le_or_gt D (K * (1 - exp (-r * (t - td)))) with hD | hD
  · obtain ⟨x, hx, he⟩ := C75_european S K t td r D σ hD h4 h5 h6 h7.le h2
    obtain rfl : v = x := by have := (hx _).1 hv; simpa using this
    refine ⟨0, .inl ⟨hD, rfl⟩, he.trans ?_⟩
    unfold rgwTol
    simp only
    have a1 : 0 < K * exp (-r * (t - td)) := by positivity
    have a2 : 0 < K * exp (-r * t) := by positivity
    have a3 : 0 ≤ (K - D) * exp (-r * td) := mul_nonneg (by linarith) (exp_pos _).le
    have a4 : 0 ≤ exp (-r * td) * (1e-5 + 7.5e-8 * (0 + 1e-5 + K * exp (-r * (t - td)))) := by positivity
    have q : ∀ x y z w : ℝ, 0 < x → 0 < y → 0 ≤ z → 0 ≤ w →
        7.5e-8 * (x + y) ≤ w + (3.325e-6 * x + 3.25e-6 * y + 7.5e-8 * z) := by
      intro x y z w _ _ _ _
      norm_num
      linarith
    exact q _ _ _ _ h4 a2 a3 a4
  · obtain ⟨y, hy, hc⟩ := C75_exercise S K t td r D σ hD h8 h3 h4 h5 h6 h7 h2 h9
    have := (hy _).1 hv
    rcases hc with hc | ⟨w, I, hw, hI, hs, he⟩
    · rw [hc] at this; cases this
    · obtain rfl : v = w := by have := this.trans hw; simpa using this
      exact ⟨I, .inr ⟨hI, hs⟩, he⟩

/-- **C119 (bounds).** A price returned by `call()` is, apart from the error bound of C75, at least the European call on the
stock without the dividend, at least the European call that expires on the dividend date with the strike reduced by the
dividend (the two candidates of Black's approximation), at least the value of immediate exercise if the rate is not
negative, and at most the European call plus the discounted excess of the dividend over the interest on the strike. -/
theorem C119_bounds {o : RGW} {σ v x : ℝ} (h : RGWValid o σ) (hv : o.Call (.ok v)) (hx : x = o.S - o.D * exp (-o.r * o.td)) :
    ∃ I, CriticalPrice o σ I ∧
      bsCall x o.K o.t o.r o.r σ - rgwTol o I ≤ v ∧
      bsCall x (o.K - o.D) o.td o.r o.r σ - rgwTol o I ≤ v ∧
      (0 ≤ o.r → o.S - o.K - rgwTol o I ≤ v) ∧
      v ≤ bsCall x o.K o.t o.r o.r σ + exp (-o.r * o.td) * max (o.D - o.K * (1 - exp (-o.r * (o.t - o.td)))) 0 + rgwTol o I := by
  obtain ⟨I, hI, he⟩ := rgw_near h hv
  have hx0 : 0 < x := by rw [hx]; exact h.x
  obtain ⟨b1, b2, b3⟩ := dividendCall_bounds (r := o.r) (D := o.D) (σ := σ) hx0 h.K.le h.td.le h.t.le
  have b4 := (C75_spec_bounds (r := o.r) (D := o.D) (σ := σ) hx0 h.K.le h.td.le h.t.le).2
  unfold rgwValue at he
  rw [← hx] at he
  obtain ⟨e1, e2⟩ := abs_le.1 he
  refine ⟨I, hI, by linarith, by linarith, fun hr => ?_, by linarith⟩
  have q : o.K * exp (-o.r * o.td) ≤ o.K := mul_le_of_le_one_right h.K.le (exp_le_one_iff.2 (by nlinarith [h.td]))
  have : o.S = x + o.D * exp (-o.r * o.td) := by rw [hx]; ring
  linarith

/-- **C119 (spot).** A higher spot does not lower the price and raises it by no more than the difference. -/
theorem C119_spot {o o' : RGW} {σ v v' : ℝ} (h : RGWValid o σ) (h' : RGWValid o' σ) (ho : o' = { o with S := o'.S })
    (hS : o.S ≤ o'.S) (hv : o.Call (.ok v)) (hv' : o'.Call (.ok v')) :
    ∃ I I', CriticalPrice o σ I ∧ CriticalPrice o' σ I' ∧ v ≤ v' + (rgwTol o I + rgwTol o' I') ∧
      v' ≤ v + (o'.S - o.S) + (rgwTol o I + rgwTol o' I') := by
  obtain ⟨I, hI, he⟩ := rgw_near h hv
  obtain ⟨I', hI', he'⟩ := rgw_near h' hv'
  refine ⟨I, I', hI, hI', ?_⟩
  have key := dividendCall_spot (x' := o'.S - o.D * exp (-o.r * o.td)) (r := o.r) (D := o.D) (σ := σ) h.x (by linarith) h.K.le h.td.le h.t.le
  have e : rgwValue o' σ = dividendCall (o'.S - o.D * exp (-o.r * o.td)) o.K o.t o.td o.r o.D σ := by
    rw [ho]; rfl
  rw [e] at he'
  unfold rgwValue at he
  obtain ⟨e1, e2⟩ := abs_le.1 he
  obtain ⟨e3, e4⟩ := abs_le.1 he'
  constructor <;> linarith [key.1, key.2]

/-- **C119 (strike).** A higher strike does not raise the price. -/
theorem C119_strike {o o' : RGW} {σ v v' : ℝ} (h : RGWValid o σ) (h' : RGWValid o' σ) (ho : o' = { o with K := o'.K })
    (hK : o.K ≤ o'.K) (hv : o.Call (.ok v)) (hv' : o'.Call (.ok v')) :
    ∃ I I', CriticalPrice o σ I ∧ CriticalPrice o' σ I' ∧ v' ≤ v + (rgwTol o I + rgwTol o' I') := by
  obtain ⟨I, hI, he⟩ := rgw_near h hv
  obtain ⟨I', hI', he'⟩ := rgw_near h' hv'
  refine ⟨I, I', hI, hI', ?_⟩
  have key := dividendCall_strike (r := o.r) (D := o.D) (σ := σ) h.x h.K.le hK h.t.le
  have e : rgwValue o' σ = dividendCall (o.S - o.D * exp (-o.r * o.td)) o'.K o.t o.td o.r o.D σ := by
    rw [ho]; rfl
  rw [e] at he'
  unfold rgwValue at he
  linarith [(abs_le.1 he).1, (abs_le.1 he').2]

/-- **C119 (dividend).** A higher dividend does not raise the price. -/
theorem C119_dividend {o o' : RGW} {σ v v' : ℝ} (h : RGWValid o σ) (h' : RGWValid o' σ) (ho : o' = { o with D := o'.D })
    (hD : o.D ≤ o'.D) (hv : o.Call (.ok v)) (hv' : o'.Call (.ok v')) :
    ∃ I I', CriticalPrice o σ I ∧ CriticalPrice o' σ I' ∧ v' ≤ v + (rgwTol o I + rgwTol o' I') := by
  obtain ⟨I, hI, he⟩ := rgw_near h hv
  obtain ⟨I', hI', he'⟩ := rgw_near h' hv'
  refine ⟨I, I', hI, hI', ?_⟩
  have hx' : 0 < o.S - o'.D * exp (-o.r * o.td) := by have := h'.x; rw [ho] at this; exact this
  have key := dividendCall_dividend (x := o.S - o.D * exp (-o.r * o.td)) (r := o.r) (D := o.D) (σ := σ) hx' hD (by ring) h.K.le h.td.le h.t.le
  have e : rgwValue o' σ = dividendCall (o.S - o'.D * exp (-o.r * o.td)) o.K o.t o.td o.r o'.D σ := by
    rw [ho]; rfl
  rw [e] at he'
  unfold rgwValue at he
  linarith [(abs_le.1 he).1, (abs_le.1 he').2]

/-- **C119 (volatility).** A higher volatility does not lower the price. -/
theorem C119_volatility {o o' : RGW} {σ σ' v v' : ℝ} (h : RGWValid o σ) (h' : RGWValid o' σ') (ho : o' = { o with sigma := some σ' })
    (hσ : σ ≤ σ') (hv : o.Call (.ok v)) (hv' : o'.Call (.ok v')) :
    ∃ I I', CriticalPrice o σ I ∧ CriticalPrice o' σ' I' ∧ v ≤ v' + (rgwTol o I + rgwTol o' I') := by
  obtain ⟨I, hI, he⟩ := rgw_near h hv
  obtain ⟨I', hI', he'⟩ := rgw_near h' hv'
  refine ⟨I, I', hI, hI', ?_⟩
  have key := dividendCall_vol (r := o.r) (D := o.D) h.K.le h.td.le h.t.le h.x h.vol.le hσ
  have e : rgwValue o' σ' = dividendCall (o.S - o.D * exp (-o.r * o.td)) o.K o.t o.td o.r o.D σ' := by
    rw [ho]; rfl
  rw [e] at he'
  unfold rgwValue at he
  linarith [(abs_le.1 he).2, (abs_le.1 he').1]

/-- The docstring's contract is covered, with 20% and with 30% volatility; the dividend makes exercise profitable. -/
theorem C119_example : RGWValid ⟨80, 82, 1 / 3, 1 / 4, 0.06, 4, some 0.2⟩ 0.2 ∧ RGWValid ⟨80, 82, 1 / 3, 1 / 4, 0.06, 4, some 0.3⟩ 0.3 ∧
    (82 : ℝ) * (1 - exp (-0.06 * (1 / 3 - 1 / 4))) < 4 := by
  obtain ⟨h1, h2, h3, h4⟩ := C75_example
  exact ⟨⟨rfl, by norm_num, by norm_num, h3, by norm_num, by norm_num, by norm_num, h2, h4⟩,
    ⟨rfl, by norm_num, by norm_num, h3, by norm_num, by norm_num, by norm_num, h2, h4⟩, h1⟩

end Verif.Props
