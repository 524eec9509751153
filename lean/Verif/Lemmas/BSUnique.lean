import Verif.Lemmas.BSEquation
import Verif.Spec.BarrierCall
import Mathlib.Analysis.Calculus.DerivativeTest

/-!
The maximum principle for the Black–Scholes equation below a level: a bounded solution is determined by the values
it assumes at the level and at expiry.
-/
namespace Verif
open Real Spec Filter Topology Set

theorem second_deriv_nonpos {f f1 : ℝ → ℝ} {f2 x : ℝ} (h1 : ∀ᶠ s in 𝓝 x, HasDerivAt f (f1 s) s)
    (h2 : HasDerivAt f1 f2 x) (hm : IsLocalMax f x) : f2 ≤ 0 := by
  by_contra hpos
  push Not at hpos
  have e1 : deriv f =ᶠ[𝓝 x] f1 := h1.mono fun s hs => hs.deriv
  have e2 : deriv (deriv f) x = f2 := by rw [e1.deriv_eq, h2.deriv]
  have hc : ContinuousAt f x := h1.self_of_nhds.continuousAt
  have hmin : IsLocalMin f x := isLocalMin_of_deriv_deriv_pos (by rw [e2]; exact hpos) hm.deriv_eq_zero hc
  have hconst : f =ᶠ[𝓝 x] fun _ => f x := by
    filter_upwards [hm, hmin] with y h1 h2 using le_antisymm h1 h2
  have : deriv (deriv f) x = 0 := by
    rw [hconst.deriv.deriv_eq]; simp
  linarith

theorem left_deriv_nonneg {f : ℝ → ℝ} {d x : ℝ} (h : HasDerivAt f d x) (hm : ∀ᶠ s in 𝓝[<] x, f s ≤ f x) : 0 ≤ d := by
  have ht := (hasDerivAt_iff_tendsto_slope.1 h).mono_left (nhdsWithin_mono x (fun y (hy : y < x) => hy.ne) : 𝓝[<] x ≤ 𝓝[≠] x)
  refine ge_of_tendsto ht ?_
  filter_upwards [hm, self_mem_nhdsWithin] with s h1 h2
  rw [slope_def_field]
  have h2' : s < x := h2
  exact div_nonneg_of_nonpos (by linarith) (by linarith)

/-- `V` is a subsolution of the Black–Scholes equation at `(S, T)`. -/
def SubBS (r b σ : ℝ) (V : ℝ → ℝ → ℝ) (S T : ℝ) : Prop :=
  ∃ (V₁ : ℝ → ℝ) (V₂ V₃ : ℝ), (∀ᶠ s in 𝓝 S, HasDerivAt (fun s => V s T) (V₁ s) s) ∧ HasDerivAt V₁ V₂ S ∧
    HasDerivAt (fun T => V S T) V₃ T ∧ V₃ ≤ 1 / 2 * σ ^ 2 * S ^ 2 * V₂ + b * S * V₁ S - r * V S T

theorem bs_max_principle_upto {r b σ I : ℝ} {W : ℝ → ℝ → ℝ} {S T : ℝ}
    (hcont : ContinuousOn (fun q : ℝ × ℝ => W q.1 q.2) (Ioo 0 I ×ˢ Ioi 0))
    (heq : ∀ S T, 0 < S → S < I → 0 < T → SubBS r b σ W S T)
    (hbd : ∀ S₀ T₀, 0 < S₀ → S₀ ≤ I → 0 ≤ T₀ → T₀ ≤ T → S₀ = I ∨ T₀ = 0 →
      ∀ ε > 0, ∀ᶠ q : ℝ × ℝ in 𝓝[Ioo 0 I ×ˢ Ioi 0] (S₀, T₀), W q.1 q.2 < ε)
    (hC : ∀ T₁, ∃ C, ∀ S T, 0 < S → S < I → 0 < T → T ≤ T₁ → W S T ≤ C)
    (hS : 0 < S) (hSI : S < I) (hT : 0 < T) : W S T ≤ 0 := by
  by_contra hpos
  push Not at hpos
  set c := σ ^ 2 - b with hc
  obtain ⟨C, hC⟩ := hC T
  -- the comparison function
  obtain ⟨ε, hε, hm⟩ : ∃ ε > 0, 0 < exp (r * T) * W S T - ε * (exp (c * T) * S⁻¹ + T) := by
    have h1 : 0 < exp (r * T) * W S T := mul_pos (exp_pos _) hpos
    have h2 : 0 < exp (c * T) * S⁻¹ + T := by positivity
    refine ⟨exp (r * T) * W S T / (exp (c * T) * S⁻¹ + T) / 2, by positivity, ?_⟩
    rw [div_right_comm, div_mul_cancel₀ _ h2.ne']
    linarith
  set f : ℝ × ℝ → ℝ := fun q => exp (r * q.2) * W q.1 q.2 - ε * (exp (c * q.2) * q.1⁻¹ + q.2) with hf
  set m := f (S, T) with hmdef
  have hm' : 0 < m := hm
  set D : Set (ℝ × ℝ) := Ioo 0 I ×ˢ Ioi 0 with hD
  have hDo : IsOpen D := isOpen_Ioo.prod isOpen_Ioi
  set A : Set (ℝ × ℝ) := {q | q ∈ D ∧ q.2 ≤ T ∧ m ≤ f q} with hA
  have hfc : ContinuousOn f D := by
    refine ((by fun_prop : Continuous fun q : ℝ × ℝ => exp (r * q.2)).continuousOn.mul hcont).sub
      (continuousOn_const.mul (((by fun_prop : Continuous fun q : ℝ × ℝ => exp (c * q.2)).continuousOn.mul
        (continuousOn_fst.inv₀ fun q hq => hq.1.1.ne')).add continuousOn_snd))
  -- `A` stays away from `S = 0`
  have hsplit : ∀ q ∈ A, m ≤ exp (r * q.2) * W q.1 q.2 ∧ ε * (exp (c * q.2) * q.1⁻¹) ≤ exp (r * q.2) * W q.1 q.2 := by
    intro q hq
    have h1 : m ≤ exp (r * q.2) * W q.1 q.2 - ε * (exp (c * q.2) * q.1⁻¹ + q.2) := hq.2.2
    have h2 : 0 < q.1 := hq.1.1.1
    have h3 : 0 < q.2 := hq.1.2
    have h4 : 0 < exp (c * q.2) * q.1⁻¹ := by positivity
    have h5 := mul_pos hε h3
    have h6 := mul_pos hε h4
    constructor <;> nlinarith
  obtain ⟨δ, hδ, hAδ⟩ : ∃ δ > 0, ∀ q ∈ A, δ ≤ q.1 := by
    have hM : 0 < exp (|r| * T) * (|C| + 1) := by positivity
    refine ⟨ε * exp (-(|c| * T)) / (exp (|r| * T) * (|C| + 1)), by positivity, fun q hq => ?_⟩
    have h2 : 0 < q.1 := hq.1.1.1
    have h3 : 0 < q.2 := hq.1.2
    have h1 := (hsplit q hq).2
    have h4 := hC q.1 q.2 h2 hq.1.1.2 h3 hq.2.1
    have h5 : exp (r * q.2) ≤ exp (|r| * T) := exp_le_exp.2
      ((mul_le_mul_of_nonneg_right (le_abs_self r) h3.le).trans (mul_le_mul_of_nonneg_left hq.2.1 (abs_nonneg r)))
    have h6 : exp (-(|c| * T)) ≤ exp (c * q.2) := exp_le_exp.2 (by
      have a1 := mul_le_mul_of_nonneg_right (neg_abs_le c) h3.le
      have a2 := mul_le_mul_of_nonneg_left hq.2.1 (abs_nonneg c)
      linarith)
    have h7 : exp (r * q.2) * W q.1 q.2 ≤ exp (|r| * T) * (|C| + 1) :=
      mul_le_mul h5 (by have := le_abs_self C; linarith)
        (by
          by_contra hn
          push Not at hn
          have := (hsplit q hq).1
          have := mul_neg_of_pos_of_neg (exp_pos (r * q.2)) hn
          linarith) (exp_pos _).le
    rw [div_le_iff₀ hM]
    have h8 : ε * exp (-(|c| * T)) ≤ ε * exp (c * q.2) := mul_le_mul_of_nonneg_left h6 hε.le
    have h9 : ε * (exp (c * q.2) * q.1⁻¹) * q.1 = ε * exp (c * q.2) := by field_simp
    have h10 := mul_le_mul_of_nonneg_right (h1.trans h7) h2.le
    rw [h9] at h10
    nlinarith
  -- `A` is compact
  have hsub : A ⊆ Icc δ I ×ˢ Icc 0 T := fun q hq => ⟨⟨hAδ q hq, hq.1.1.2.le⟩, (show 0 < q.2 from hq.1.2).le, hq.2.1⟩
  have hbox : IsCompact (Icc δ I ×ˢ Icc 0 T) := isCompact_Icc.prod isCompact_Icc
  have hclosed : IsClosed A := by
    rw [isClosed_iff_frequently]
    intro x hx
    have hxB : x ∈ Icc δ I ×ˢ Icc 0 T := hbox.isClosed.mem_of_frequently_of_tendsto (hx.mono hsub) tendsto_id
    have hx1 : 0 < x.1 := hδ.trans_le hxB.1.1
    have hfr : ∃ᶠ y in 𝓝[D] x, y ∈ A := by
      rw [frequently_nhdsWithin_iff]
      exact hx.mono fun y hy => ⟨hy, hy.1⟩
    by_cases hb : x.1 = I ∨ x.2 = 0
    · exfalso
      have hM : 0 < exp (|r| * T) := exp_pos _
      obtain ⟨y, hy1, hy2⟩ := (hfr.and_eventually (hbd x.1 x.2 hx1 hxB.1.2 hxB.2.1 hxB.2.2 hb (m / exp (|r| * T)) (by positivity))).exists
      have h3 : 0 < y.2 := hy1.1.2
      have h5 : exp (r * y.2) ≤ exp (|r| * T) := exp_le_exp.2
        ((mul_le_mul_of_nonneg_right (le_abs_self r) h3.le).trans (mul_le_mul_of_nonneg_left hy1.2.1 (abs_nonneg r)))
      have h6 := (hsplit y hy1).1
      have h7 : 0 < W y.1 y.2 := by
        by_contra hn
        push Not at hn
        have := mul_nonpos_of_nonneg_of_nonpos (exp_pos (r * y.2)).le hn
        linarith
      rw [lt_div_iff₀ hM] at hy2
      nlinarith [mul_le_mul_of_nonneg_right h5 h7.le]
    · push Not at hb
      have hxD : x ∈ D := ⟨⟨hx1, lt_of_le_of_ne hxB.1.2 hb.1⟩, lt_of_le_of_ne hxB.2.1 (Ne.symm hb.2)⟩
      refine ⟨hxD, hxB.2.2, ?_⟩
      have hcx := (hfc x hxD).tendsto
      exact ge_of_tendsto_of_frequently hcx (hfr.mono fun y hy => hy.2.2)
  have hcomp : IsCompact A := hbox.of_isClosed_subset hclosed hsub
  have hne : A.Nonempty := ⟨(S, T), ⟨⟨hS, hSI⟩, hT⟩, le_rfl, le_rfl⟩
  obtain ⟨q, hq, hmax⟩ := hcomp.exists_isMaxOn hne (hfc.mono fun y hy => hy.1)
  have hmax' : ∀ y ∈ D, y.2 ≤ T → f y ≤ f q := by
    intro y hy hyT
    by_cases h : m ≤ f y
    · exact hmax ⟨hy, hyT, h⟩
    · exact (not_le.1 h).le.trans hq.2.2
  obtain ⟨x, t⟩ := q
  have hx : 0 < x := hq.1.1.1
  have hxI : x < I := hq.1.1.2
  have ht : 0 < t := hq.1.2
  have htT : t ≤ T := hq.2.1
  obtain ⟨V1, V2, V3, d1, d2, d3, d4⟩ := heq x t hx hxI ht
  have inv1 : ∀ s : ℝ, 0 < s → HasDerivAt (fun s : ℝ => s⁻¹) (-(s ^ 2)⁻¹) s := fun s hs => hasDerivAt_inv hs.ne'
  have inv2 : HasDerivAt (fun s : ℝ => (s ^ 2)⁻¹) (-(2 * x) / (x ^ 2) ^ 2) x := by
    have := (hasDerivAt_pow 2 x).inv (by positivity)
    refine HasDerivAt.congr_deriv this ?_
    norm_num
  have g1 : ∀ᶠ s in 𝓝 x, HasDerivAt (fun s => f (s, t)) (exp (r * t) * V1 s - ε * (exp (c * t) * -(s ^ 2)⁻¹)) s := by
    filter_upwards [d1, lt_mem_nhds hx] with s h1 h2
    have := (h1.const_mul (exp (r * t))).sub ((((inv1 s h2).const_mul (exp (c * t))).add_const t).const_mul ε)
    exact this
  have g2 : HasDerivAt (fun s => exp (r * t) * V1 s - ε * (exp (c * t) * -(s ^ 2)⁻¹))
      (exp (r * t) * V2 - ε * (exp (c * t) * -(-(2 * x) / (x ^ 2) ^ 2))) x :=
    (d2.const_mul _).sub (((inv2.neg).const_mul _).const_mul ε)
  have hloc : IsLocalMax (fun s => f (s, t)) x := by
    filter_upwards [Ioo_mem_nhds hx hxI] with s hs
    exact hmax' (s, t) ⟨hs, ht⟩ htT
  have z1 := hloc.hasDerivAt_eq_zero g1.self_of_nhds
  have z2 := second_deriv_nonpos g1 g2 hloc
  have g3 : HasDerivAt (fun u => f (x, u)) (exp (r * t) * r * W x t + exp (r * t) * V3 - ε * (exp (c * t) * c * x⁻¹ + 1)) t := by
    have e1 : ∀ k : ℝ, HasDerivAt (fun u => exp (k * u)) (exp (k * t) * k) t := fun k => by
      have h : HasDerivAt (fun u => k * u) k t := by simpa using (hasDerivAt_id t).const_mul k
      exact h.exp
    exact ((e1 r).mul d3).sub ((((e1 c).mul_const x⁻¹).add (hasDerivAt_id t)).const_mul ε)
  have z3 := left_deriv_nonneg g3 (by
    filter_upwards [Ioo_mem_nhdsLT ht] with u hu
    exact hmax' (x, u) ⟨⟨hx, hxI⟩, hu.1⟩ (hu.2.le.trans htT))
  have z4 := mul_le_mul_of_nonneg_left d4 (exp_pos (r * t)).le
  have key : exp (r * t) * r * W x t + exp (r * t) * (1 / 2 * σ ^ 2 * x ^ 2 * V2 + b * x * V1 x - r * W x t)
      - ε * (exp (c * t) * c * x⁻¹ + 1)
      = 1 / 2 * σ ^ 2 * x ^ 2 * (exp (r * t) * V2 - ε * (exp (c * t) * -(-(2 * x) / (x ^ 2) ^ 2)))
        + b * x * (exp (r * t) * V1 x - ε * (exp (c * t) * -(x ^ 2)⁻¹)) - ε := by
    generalize exp (r * t) = E
    generalize exp (c * t) = F
    rw [hc]
    field_simp
    ring
  rw [z1] at key
  have : 1 / 2 * σ ^ 2 * x ^ 2 * (exp (r * t) * V2 - ε * (exp (c * t) * -(-(2 * x) / (x ^ 2) ^ 2))) ≤ 0 :=
    mul_nonpos_of_nonneg_of_nonpos (by positivity) z2
  linarith

theorem bs_max_principle {r b σ I : ℝ} {W : ℝ → ℝ → ℝ}
    (hcont : ContinuousOn (fun q : ℝ × ℝ => W q.1 q.2) (Ioo 0 I ×ˢ Ioi 0))
    (heq : ∀ S T, 0 < S → S < I → 0 < T → SubBS r b σ W S T)
    (hbd : ∀ S₀ T₀, 0 < S₀ → S₀ ≤ I → 0 ≤ T₀ → S₀ = I ∨ T₀ = 0 →
      ∀ ε > 0, ∀ᶠ q : ℝ × ℝ in 𝓝[Ioo 0 I ×ˢ Ioi 0] (S₀, T₀), W q.1 q.2 < ε)
    (hC : ∀ T₁, ∃ C, ∀ S T, 0 < S → S < I → 0 < T → T ≤ T₁ → W S T ≤ C)
    {S T : ℝ} (hS : 0 < S) (hSI : S < I) (hT : 0 < T) : W S T ≤ 0 :=
  bs_max_principle_upto hcont heq (fun S₀ T₀ h1 h2 h3 _ => hbd S₀ T₀ h1 h2 h3) hC hS hSI hT

theorem _root_.Verif.Spec.SolvesBS.sub {r b σ S T : ℝ} {V : ℝ → ℝ → ℝ} (h : SolvesBS r b σ V S T) : SubBS r b σ V S T := by
  obtain ⟨V1, V2, V3, h1, h2, h3, h4⟩ := h
  exact ⟨V1, V2, V3, h1, h2, h3, h4.le⟩

/-- The specification determines the value. -/
theorem barrierCall_unique {r b σ K I : ℝ} {V W : ℝ → ℝ → ℝ} (hV : IsBarrierCall r b σ K I V)
    (hW : IsBarrierCall r b σ K I W) {S T : ℝ} (hS : 0 < S) (hSI : S < I) (hT : 0 < T) : V S T = W S T := by
  have key : ∀ {V W : ℝ → ℝ → ℝ}, IsBarrierCall r b σ K I V → IsBarrierCall r b σ K I W → V S T ≤ W S T := by
    intro V W hV hW
    have h := bs_max_principle (r := r) (b := b) (σ := σ) (I := I) (W := fun s t => V s t + -1 * W s t)
      (hV.continuous.add (continuousOn_const.mul hW.continuous))
      (fun s t h1 h2 h3 => (SolvesBSLemmas.add (hV.equation s t h1 h2 h3)
        (SolvesBSLemmas.smul (-1) (hW.equation s t h1 h2 h3))).sub)
      (fun s t h1 h2 h3 h4 ε hε => by
        have := (hV.boundary s t h1 h2 h3 h4).add ((hW.boundary s t h1 h2 h3 h4).const_mul (-1))
        exact this.eventually (gt_mem_nhds (by simpa using hε)))
      (fun T₁ => by
        obtain ⟨C, hC⟩ := hV.bounded T₁
        obtain ⟨C', hC'⟩ := hW.bounded T₁
        refine ⟨C + C', fun s t h1 h2 h3 h4 => ?_⟩
        have a := (abs_le.1 (hC s t h1 h2 h3 h4)).2
        have b := (abs_le.1 (hC' s t h1 h2 h3 h4)).1
        linarith) hS hSI hT
    linarith
  exact le_antisymm (key hV hW) (key hW hV)

/-- The value is not negative. -/
theorem barrierCall_nonneg {r b σ K I : ℝ} {V : ℝ → ℝ → ℝ} (hV : IsBarrierCall r b σ K I V) {S T : ℝ} (hS : 0 < S)
    (hSI : S < I) (hT : 0 < T) : 0 ≤ V S T := by
  have h := bs_max_principle (r := r) (b := b) (σ := σ) (I := I) (W := fun s t => -1 * V s t)
    (continuousOn_const.mul hV.continuous)
    (fun s t h1 h2 h3 => (SolvesBSLemmas.smul (-1) (hV.equation s t h1 h2 h3)).sub)
    (fun s t h1 h2 h3 h4 ε hε => by
      have := (hV.boundary s t h1 h2 h3 h4).const_mul (-1)
      refine this.eventually (gt_mem_nhds ?_)
      have := le_max_right (s - K) 0
      linarith)
    (fun T₁ => by
      obtain ⟨C, hC⟩ := hV.bounded T₁
      refine ⟨C, fun s t h1 h2 h3 h4 => ?_⟩
      have a := (abs_le.1 (hC s t h1 h2 h3 h4)).1
      linarith) hS hSI hT
  linarith

/-- The value is at most the spot when the cost of carry does not exceed the interest rate. -/
theorem barrierCall_le_spot {r b σ K I : ℝ} {V : ℝ → ℝ → ℝ} (hV : IsBarrierCall r b σ K I V) (hK : 0 ≤ K) (hbr : b ≤ r)
    {S T : ℝ} (hS : 0 < S) (hSI : S < I) (hT : 0 < T) : V S T ≤ S := by
  have h := bs_max_principle (r := r) (b := b) (σ := σ) (I := I) (W := fun s t => V s t - s)
    (hV.continuous.sub continuousOn_fst)
    (fun s t h1 h2 h3 => by
      obtain ⟨V1, V2, V3, d1, d2, d3, d4⟩ := hV.equation s t h1 h2 h3
      refine ⟨fun u => V1 u - 1, V2, V3, ?_, d2.sub_const 1, d3.sub_const s, ?_⟩
      · filter_upwards [d1] with u hu using hu.sub (hasDerivAt_id u)
      · have := mul_nonneg (sub_nonneg.2 hbr) h1.le
        rw [d4]; nlinarith)
    (fun s t h1 h2 h3 h4 ε hε => by
      have := (hV.boundary s t h1 h2 h3 h4).sub
        ((continuous_fst.tendsto (s, t)).mono_left (nhdsWithin_le_nhds (s := Ioo (0:ℝ) I ×ˢ Ioi (0:ℝ))))
      refine this.eventually (gt_mem_nhds ?_)
      have : max (s - K) 0 ≤ s := max_le (by linarith) h1.le
      linarith)
    (fun T₁ => by
      obtain ⟨C, hC⟩ := hV.bounded T₁
      refine ⟨C, fun s t h1 h2 h3 h4 => ?_⟩
      have a := (abs_le.1 (hC s t h1 h2 h3 h4)).2
      linarith) hS hSI hT
  linarith

end Verif
