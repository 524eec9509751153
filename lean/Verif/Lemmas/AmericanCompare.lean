import Verif.Lemmas.Viscosity

/-!
Comparison: a smooth solution of the Black–Scholes equation above a level, which equals the exercise value at the level and at
expiry, is not larger than the value of the American put.
-/
namespace Verif
open Real MeasureTheory ProbabilityTheory Spec Set Filter Topology

theorem le_amerY {r b σ ℓ : ℝ} (hr : 0 ≤ r) {w w1 w2 : ℝ → ℝ → ℝ}
    (h1 : ∀ τ y, 0 < τ → ℓ < y → HasDerivAt (w τ) (w1 τ y) y)
    (h2 : ∀ τ y, 0 < τ → ℓ < y → HasDerivAt (w1 τ) (w2 τ y) y)
    (hc0 : ∀ τ y, 0 < τ → ℓ < y → ContinuousAt (fun q : ℝ × ℝ => w q.1 q.2) (τ, y))
    (hc1 : ∀ τ y, 0 < τ → ℓ < y → ContinuousAt (fun q : ℝ × ℝ => w1 q.1 q.2) (τ, y))
    (hc2 : ∀ τ y, 0 < τ → ℓ < y → ContinuousAt (fun q : ℝ × ℝ => w2 q.1 q.2) (τ, y))
    (ht : ∀ τ y, 0 < τ → ℓ < y → HasDerivAt (fun τ => w τ y)
      (1 / 2 * σ ^ 2 * w2 τ y + (b - σ ^ 2 / 2) * w1 τ y - r * w τ y) τ)
    (hbd : ∀ τ₀ y₀, 0 ≤ τ₀ → ℓ ≤ y₀ → τ₀ = 0 ∨ y₀ = ℓ → ∀ ε > 0,
      ∀ᶠ q : ℝ × ℝ in 𝓝[Ioi 0 ×ˢ Ioi ℓ] (τ₀, y₀), w q.1 q.2 < putG1 q.2 + ε)
    (hgrow : ∀ T, ∃ C, ∀ τ y, 0 < τ → τ ≤ T → ℓ < y → w τ y ≤ C * exp y) {τ y : ℝ} (hτ : 0 < τ) (hy : ℓ < y) :
    w τ y ≤ amerY r b σ τ y := by
  by_contra hcon
  push Not at hcon
  set c := σ ^ 2 + 2 * b - r + 1 with hcdef
  set ψ : ℝ → ℝ → ℝ := fun τ y => exp (2 * y + c * τ) with hψ
  have hψpos : ∀ τ y, 0 < ψ τ y := fun τ y => exp_pos _
  obtain ⟨ε, hε, hm⟩ : ∃ ε > 0, amerY r b σ τ y - w τ y + ε * ψ τ y < 0 := by
    refine ⟨(w τ y - amerY r b σ τ y) / ψ τ y / 2, by have := hψpos τ y; have := sub_pos.2 hcon; positivity, ?_⟩
    rw [div_right_comm, div_mul_cancel₀ _ (hψpos τ y).ne']
    linarith
  set f : ℝ × ℝ → ℝ := fun q => amerY r b σ q.1 q.2 - w q.1 q.2 + ε * ψ q.1 q.2 with hf
  set m := f (τ, y) with hmdef
  have hm0 : m < 0 := hm
  set D : Set (ℝ × ℝ) := Ioi 0 ×ˢ Ioi ℓ with hD
  have hDo : IsOpen D := isOpen_Ioi.prod isOpen_Ioi
  set A : Set (ℝ × ℝ) := {q | q ∈ D ∧ q.1 ≤ τ ∧ f q ≤ m} with hA
  have hlsc : ∀ q ∈ D, LowerSemicontinuousAt f q := by
    intro q hq
    have hcont : ContinuousAt (fun q : ℝ × ℝ => - w q.1 q.2 + ε * ψ q.1 q.2) q :=
      (hc0 q.1 q.2 hq.1 hq.2).neg.add (by simp only [hψ]; fun_prop)
    have := (amerY_lsc (b := b) (σ := σ) hr (show 0 < q.1 from hq.1) q.2).add hcont.lowerSemicontinuousAt
    have e : f = fun z : ℝ × ℝ => amerY r b σ z.1 z.2 + (-w z.1 z.2 + ε * ψ z.1 z.2) := by
      funext p; simp only [hf]; ring
    rw [e]
    exact this
  -- `A` is bounded
  obtain ⟨C, hC⟩ := hgrow τ
  obtain ⟨Y, hAY⟩ : ∃ Y, ∀ q ∈ A, q.2 ≤ Y := by
    refine ⟨log ((|C| + 1) / (ε * exp (-(|c| * τ)))), fun q hq => ?_⟩
    have q1 : 0 < q.1 := hq.1.1
    have q2 : ℓ < q.2 := hq.1.2
    have a1 := hC q.1 q.2 q1 hq.2.1 q2
    have a2 : amerY r b σ q.1 q.2 - w q.1 q.2 + ε * ψ q.1 q.2 ≤ m := hq.2.2
    have a3 := (amerY_nice (b := b) (σ := σ) hr q1.le).nonneg q.2
    have a4 : exp (-(|c| * τ)) ≤ exp (c * q.1) := exp_le_exp.2 (by
      have b1 := mul_le_mul_of_nonneg_right (neg_abs_le c) q1.le
      have b2 := mul_le_mul_of_nonneg_left hq.2.1 (abs_nonneg c)
      linarith)
    have a5 : ψ q.1 q.2 = exp q.2 * exp q.2 * exp (c * q.1) := by
      simp only [hψ]; rw [← exp_add, ← exp_add]; congr 1; ring
    have a6 : C * exp q.2 ≤ (|C| + 1) * exp q.2 :=
      mul_le_mul_of_nonneg_right ((le_abs_self C).trans (by linarith)) (exp_pos _).le
    rw [le_log_iff_exp_le (by positivity), le_div_iff₀ (by positivity)]
    rw [a5] at a2
    have a7 : ε * (exp q.2 * exp q.2 * exp (c * q.1)) ≤ (|C| + 1) * exp q.2 := by linarith
    have a8 : exp q.2 * (ε * exp (c * q.1)) ≤ |C| + 1 := by
      have : exp q.2 * (exp q.2 * (ε * exp (c * q.1))) ≤ exp q.2 * (|C| + 1) := by linarith
      exact le_of_mul_le_mul_left this (exp_pos _)
    refine le_trans ?_ a8
    exact mul_le_mul_of_nonneg_left (mul_le_mul_of_nonneg_left a4 hε.le) (exp_pos _).le
  have hsub : A ⊆ Icc 0 τ ×ˢ Icc ℓ Y := fun q hq =>
    ⟨⟨(show 0 < q.1 from hq.1.1).le, hq.2.1⟩, (show ℓ < q.2 from hq.1.2).le, hAY q hq⟩
  have hbox : IsCompact (Icc 0 τ ×ˢ Icc ℓ Y) := isCompact_Icc.prod isCompact_Icc
  have hclosed : IsClosed A := by
    rw [isClosed_iff_frequently]
    intro x hx
    have hxB : x ∈ Icc 0 τ ×ˢ Icc ℓ Y := hbox.isClosed.mem_of_frequently_of_tendsto (hx.mono hsub) tendsto_id
    have hfr : ∃ᶠ y in 𝓝[D] x, y ∈ A := by
      rw [frequently_nhdsWithin_iff]
      exact hx.mono fun y hy => ⟨hy, hy.1⟩
    by_cases hb : x.1 = 0 ∨ x.2 = ℓ
    · exfalso
      obtain ⟨p, hp1, hp2⟩ := (hfr.and_eventually (hbd x.1 x.2 hxB.1.1 hxB.2.1 hb (-m) (by linarith))).exists
      have b1 := putG1_le_amerY (b := b) (σ := σ) hr (show 0 < p.1 from hp1.1.1).le p.2
      have b2 : amerY r b σ p.1 p.2 - w p.1 p.2 + ε * ψ p.1 p.2 ≤ m := hp1.2.2
      have b3 := mul_pos hε (hψpos p.1 p.2)
      linarith
    · push Not at hb
      have hxD : x ∈ D := ⟨lt_of_le_of_ne hxB.1.1 (Ne.symm hb.1), lt_of_le_of_ne hxB.2.1 (Ne.symm hb.2)⟩
      refine ⟨hxD, hxB.1.2, ?_⟩
      by_contra hgt
      push Not at hgt
      obtain ⟨p, hp1, hp2⟩ := (hx.and_eventually (hlsc x hxD m hgt)).exists
      exact absurd hp1.2.2 (not_le.2 hp2)
  have hcomp : IsCompact A := hbox.of_isClosed_subset hclosed hsub
  have hne : A.Nonempty := ⟨(τ, y), ⟨hτ, hy⟩, le_rfl, le_rfl⟩
  obtain ⟨q, hq, hmin⟩ := LowerSemicontinuousOn.exists_isMinOn hne hcomp
    (fun p hp => (hlsc p hp.1).lowerSemicontinuousWithinAt A)
  have hmin' : ∀ p ∈ D, p.1 ≤ τ → f q ≤ f p := by
    intro p hp hpτ
    by_cases h : f p ≤ m
    · exact hmin ⟨hp, hpτ, h⟩
    · exact hq.2.2.trans (not_le.1 h).le
  obtain ⟨τ₀, y₀⟩ := q
  have hτ₀ : 0 < τ₀ := hq.1.1
  have hy₀ : ℓ < y₀ := hq.1.2
  have hτ₀τ : τ₀ ≤ τ := hq.2.1
  set m' := f (τ₀, y₀) with hm'
  have hm'0 : m' < 0 := lt_of_le_of_lt hq.2.2 hm0
  set ρ := min τ₀ (y₀ - ℓ) with hρ
  have hρ0 : 0 < ρ := lt_min hτ₀ (by linarith)
  have near : ∀ t x, |t - τ₀| < ρ → |x - y₀| < ρ → 0 < t ∧ ℓ < x := by
    intro t x ht hx
    have a := (abs_lt.1 (ht.trans_le (min_le_left _ _))).1
    have c := (abs_lt.1 (hx.trans_le (min_le_right _ _))).1
    constructor <;> linarith
  have ψy : ∀ t x, HasDerivAt (ψ t) (2 * ψ t x) x := fun t x => by
    have := (((hasDerivAt_id x).const_mul 2).add_const (c * t)).exp
    refine this.congr_deriv ?_
    simp [hψ]; ring
  have ψt : ∀ t x, HasDerivAt (fun t => ψ t x) (c * ψ t x) t := fun t x => by
    have := (((hasDerivAt_id t).const_mul c).const_add (2 * x)).exp
    refine this.congr_deriv ?_
    simp [hψ]; ring
  have hψc : Continuous fun q : ℝ × ℝ => ψ q.1 q.2 := by simp only [hψ]; fun_prop
  have T := touching (r := r) (b := b) (σ := σ) (u := amerY r b σ) (f := fun t x => w t x - ε * ψ t x + m')
    (f1 := fun t x => w1 t x - ε * (2 * ψ t x)) (f2 := fun t x => w2 t x - ε * (2 * (2 * ψ t x)))
    (fτ := 1 / 2 * σ ^ 2 * w2 τ₀ y₀ + (b - σ ^ 2 / 2) * w1 τ₀ y₀ - r * w τ₀ y₀ - ε * (c * ψ τ₀ y₀)) hτ₀
    (fun t ht => amerY_nice hr ht) (fun k hk => amerY_super hr hτ₀.le hk y₀) hρ0
    (fun t x h h' => ((h1 t x (near t x h h').1 (near t x h h').2).sub ((ψy t x).const_mul ε)).add_const m')
    (fun t x h h' => (h2 t x (near t x h h').1 (near t x h h').2).sub (((ψy t x).const_mul 2).const_mul ε))
    (by
      have a : ContinuousAt (fun t : ℝ => (t, y₀)) τ₀ := by fun_prop
      have e := ContinuousAt.comp (f := fun t : ℝ => (t, y₀)) (x := τ₀) (hc1 τ₀ y₀ hτ₀ hy₀) a
      refine ContinuousAt.sub e ?_
      simp only [hψ]; fun_prop)
    ((hc2 τ₀ y₀ hτ₀ hy₀).sub (by fun_prop))
    (((ht τ₀ y₀ hτ₀ hy₀).sub ((ψt τ₀ y₀).const_mul ε)).add_const m')
    (fun t x h htt h' => by
      have := hmin' (t, x) (near t x h h') (htt.trans hτ₀τ)
      simp only [hf] at this
      linarith)
    (by simp only [hm', hf]; ring)
  have hψ0 := mul_pos hε (hψpos τ₀ y₀)
  have hrm : r * m' ≤ 0 := mul_nonpos_of_nonneg_of_nonpos hr hm'0.le
  rw [hcdef] at T
  nlinarith

end Verif
