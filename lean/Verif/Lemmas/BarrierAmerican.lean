import Verif.Lemmas.BarrierSmooth
import Verif.Lemmas.AmericanCompare
import Verif.Lemmas.BSUnique
import Verif.Lemmas.AmericanCall

/-!
The put exercised at a fixed level is worth no more than the American put.
-/
namespace Verif
open Real Spec Set Filter Topology

/-- A smooth barrier put is dominated by the American put. -/
theorem smoothPut_le {r b σ K L : ℝ} (hr : 0 ≤ r) (hK : 0 < K) (hL : 0 < L) {V : ℝ → ℝ → ℝ}
    (hV : IsBarrierPut r b σ K L V) (hs : ∀ S T, L < S → 0 < T → ContDiffAt ℝ 2 (fun q : ℝ × ℝ => V q.1 q.2) (S, T))
    {S T : ℝ} (hS : L < S) (hT : 0 < T) : V S T ≤ american false S K T r b σ := by
  have hS0 : 0 < S := hL.trans hS
  set ℓ := log (L / K) with hℓ
  have hLK : 0 < L / K := by positivity
  have hmap : ∀ y, ℓ < y → L < K * exp y := fun y hy => by
    rw [hℓ, log_lt_iff_lt_exp hLK, div_lt_iff₀ hK] at hy; linarith
  set F : ℝ × ℝ → ℝ := fun q => 1 / K * V (K * exp q.2) q.1 with hF
  set D : Set (ℝ × ℝ) := {q | 0 < q.1 ∧ ℓ < q.2} with hD
  have hFs : ∀ q ∈ D, ContDiffAt ℝ 2 F q := by
    intro q hq
    have h1 : ContDiffAt ℝ 2 (fun q : ℝ × ℝ => (K * exp q.2, q.1)) q :=
      (contDiffAt_const.mul contDiffAt_snd.exp).prodMk contDiffAt_fst
    exact contDiffAt_const.mul (ContDiffAt.comp (g := fun q : ℝ × ℝ => V q.1 q.2) q (hs (K * exp q.2) q.1 (hmap _ hq.2) hq.1) h1)
  obtain ⟨F1, F2, d1, d2, c1, c2⟩ := partials hFs
  have key : F (T, log (S / K)) ≤ amerY r b σ T (log (S / K)) := by
    refine le_amerY (ℓ := ℓ) hr (w := fun τ y => F (τ, y)) (w1 := F1) (w2 := F2) (fun τ y h h' => d1 τ y ⟨h, h'⟩)
      (fun τ y h h' => d2 τ y ⟨h, h'⟩) (fun τ y h h' => (hFs (τ, y) ⟨h, h'⟩).continuousAt)
      (fun τ y h h' => c1 τ y ⟨h, h'⟩) (fun τ y h h' => c2 τ y ⟨h, h'⟩) ?_ ?_ ?_ hT
      (log_lt_log hLK (div_lt_div_of_pos_right hS hK))
    · intro τ y hτ hy
      obtain ⟨V1, V2, V3, e1, e2, e3, e4⟩ := hV.equation _ τ (hmap y hy) hτ
      have hex : ∀ z : ℝ, HasDerivAt (fun z => K * exp z) (K * exp z) z := fun z => (hasDerivAt_exp z).const_mul K
      have g1 : ∀ᶠ z in 𝓝 y, F1 τ z = 1 / K * (V1 (K * exp z) * (K * exp z)) := by
        have hcont : Tendsto (fun z => K * exp z) (𝓝 y) (𝓝 (K * exp y)) := (hex y).continuousAt
        filter_upwards [hcont.eventually e1, Ioi_mem_nhds hy] with z hz hzy
        have hc := (hz.comp z (hex z)).const_mul (1 / K)
        exact (d1 τ z ⟨hτ, hzy⟩).unique hc
      have g2 : F2 τ y = 1 / K * (V2 * (K * exp y) * (K * exp y) + V1 (K * exp y) * (K * exp y)) := by
        have e2' : HasDerivAt (fun z => V1 (K * exp z)) (V2 * (K * exp y)) y := e2.comp y (hex y)
        have hc := (e2'.mul (hex y)).const_mul (1 / K)
        have hc' := hc.congr_of_eventuallyEq (f₁ := F1 τ) (by filter_upwards [g1] with z hz; simpa using hz)
        exact (d2 τ y ⟨hτ, hy⟩).unique hc'
      have g3 : HasDerivAt (fun τ => F (τ, y)) (1 / K * V3) τ := e3.const_mul (1 / K)
      convert g3 using 1
      rw [g2, g1.self_of_nhds, e4]
      simp only [hF]
      ring
    · intro τ₀ y₀ hτ hy h ε hε
      have hcont : Tendsto (fun q : ℝ × ℝ => (K * exp q.2, q.1)) (𝓝[Ioi 0 ×ˢ Ioi ℓ] (τ₀, y₀))
          (𝓝[Ioi L ×ˢ Ioi 0] (K * exp y₀, τ₀)) := by
        refine tendsto_nhdsWithin_of_tendsto_nhds_of_eventually_within _ ?_ ?_
        · have : Continuous fun q : ℝ × ℝ => (K * exp q.2, q.1) := by fun_prop
          exact (this.tendsto (τ₀, y₀)).mono_left nhdsWithin_le_nhds
        · filter_upwards [self_mem_nhdsWithin] with q hq
          exact ⟨hmap _ hq.2, hq.1⟩
      have hy' : L ≤ K * exp y₀ := by
        rw [hℓ, log_le_iff_le_exp hLK, div_le_iff₀ hK] at hy; linarith
      have hb := ((hV.boundary (K * exp y₀) τ₀ hy' hτ (h.symm.imp (fun e => by
        rw [e, hℓ, exp_log hLK]; field_simp) id)).comp hcont).const_mul (1 / K)
      have hg : Tendsto (fun q : ℝ × ℝ => putG1 q.2 + ε) (𝓝[Ioi 0 ×ˢ Ioi ℓ] (τ₀, y₀)) (𝓝 (putG1 y₀ + ε)) := by
        have : Continuous fun q : ℝ × ℝ => putG1 q.2 + ε := by unfold putG1; fun_prop
        exact (this.tendsto (τ₀, y₀)).mono_left nhdsWithin_le_nhds
      refine hb.eventually_lt hg ?_
      have : 1 / K * max (K - K * exp y₀) 0 = putG1 y₀ := by
        unfold putG1
        rw [mul_max_of_nonneg _ _ (by positivity)]
        congr 1
        · field_simp
        · simp
      rw [this]; linarith
    · intro T₁
      obtain ⟨C, hC⟩ := hV.growth T₁
      refine ⟨C, fun τ y h1 h2 h3 => ?_⟩
      have h := (le_abs_self _).trans (hC (K * exp y) τ (hmap y h3) h1 h2)
      have := mul_le_mul_of_nonneg_left h (by positivity : 0 ≤ 1 / K)
      calc F (τ, y) ≤ 1 / K * (C * (K * exp y)) := this
        _ = C * exp y := by field_simp
  rw [american_eq_amerY hS0 hK]
  have hval : F (T, log (S / K)) = 1 / K * V S T := by
    simp only [hF]
    rw [exp_log (by positivity)]
    congr 2; field_simp
  rw [hval] at key
  have := mul_le_mul_of_nonneg_left key hK.le
  rwa [← mul_assoc, mul_one_div_cancel hK.ne', one_mul] at this

/-- The put exercised at a level not above the strike is worth no more than the American put. -/
theorem barrierPut_le {r b σ K L β : ℝ} (hr : 0 ≤ r) (hσ : 0 < σ) (hK : 0 < K) (hL : 0 < L) (hLK : L ≤ K)
    (hβ : 0 ≤ β) (hroot : powRate (r - b) (-b) σ β = 0) {V : ℝ → ℝ → ℝ} (hV : IsBarrierPut r b σ K L V)
    {S T : ℝ} (hS : L < S) (hT : 0 < T) : V S T ≤ american false S K T r b σ := by
  set I := K / L with hI
  have hI0 : 0 < I := by positivity
  have hI1 : 1 ≤ I := (one_le_div hL).2 hLK
  have hLI : L = 1 * K / I := by rw [hI]; field_simp
  have hS0 : 0 < S := hL.trans hS
  have hU := barCall_isBarrierCall (β := β) (r := r - b) (b := -b) (σ := σ) hβ one_pos hI1 hσ hroot
  have hP := callToPut (r := r) (b := b) one_pos hK hI0 hU
  have hPs : ∀ S T, L < S → 0 < T → ContDiffAt ℝ 2
      (fun q : ℝ × ℝ => 1 / 1 * q.1 * barCall β 1 I (r - b) (-b) σ (1 * K / q.1) q.2) (S, T) := by
    intro S T hS hT
    have hS0 : 0 < S := hL.trans hS
    have h1 : ContDiffAt ℝ 2 (fun q : ℝ × ℝ => (1 * K / q.1, q.2)) (S, T) :=
      (contDiffAt_const.div contDiffAt_fst hS0.ne').prodMk contDiffAt_snd
    exact (contDiffAt_const.mul contDiffAt_fst).mul (ContDiffAt.comp
      (g := fun q : ℝ × ℝ => barCall β 1 I (r - b) (-b) σ q.1 q.2) (S, T)
      (barCall_contDiffAt β (r - b) (-b) one_pos hI0 hσ (by positivity) hT) h1)
  have e : V S T = 1 / 1 * S * barCall β 1 I (r - b) (-b) σ (1 * K / S) T := by
    rw [hLI] at hV
    have hx : 0 < 1 * K / S := by positivity
    have := barrierCall_unique (putToCall one_pos hK hI0 hV) hU hx (by
      rw [hI, one_mul]; exact div_lt_div_of_pos_left hK hL hS) hT
    rw [← this, show 1 * K / (1 * K / S) = S by field_simp]
    field_simp
  rw [e]
  rw [← hLI] at hP
  exact smoothPut_le hr hK hL hP hPs hS hT

/-- The call exercised at a level not below the strike is worth no more than the American call. -/
theorem barrierCall_le {r b σ K I β : ℝ} (hr : b ≤ r) (hσ : 0 < σ) (hK : 0 < K) (hKI : K ≤ I)
    (hβ : 0 ≤ β) (hroot : powRate r b σ β = 0) {V : ℝ → ℝ → ℝ} (hV : IsBarrierCall r b σ K I V)
    {S T : ℝ} (hS : 0 < S) (hSI : S < I) (hT : 0 < T) : V S T ≤ american true S K T r b σ := by
  have hI0 := hK.trans_le hKI
  rw [american_symmetry hS hK hT.le]
  have hV' : IsBarrierCall (r - b - -b) (- -b) σ K I V := by convert hV using 1 <;> ring
  have hP := callToPut (r := r - b) (b := -b) hK hS hI0 hV'
  have := barrierPut_le (r := r - b) (b := -b) (σ := σ) (K := S) (L := K * S / I) (β := β) (by linarith) hσ hS
    (by positivity) (by rw [div_le_iff₀ hI0]; nlinarith) hβ (by rw [← hroot]; congr 1 <;> ring) hP
    (S := K) (T := T) (by rw [div_lt_iff₀ hI0]; nlinarith) hT
  have e : 1 / K * K * V (K * S / K) T = V S T := by
    rw [mul_div_cancel_left₀ _ hK.ne', one_div_mul_cancel hK.ne', one_mul]
  rwa [e] at this

end Verif
