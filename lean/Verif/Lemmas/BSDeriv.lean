import Verif.Lemmas.CNDError

/-! Derivatives of the exact Black–Scholes value (the specification). -/
namespace Verif
open Real Spec Filter Topology

/-- Derivative of `A Φ(d) - B Φ(d - w)` when the density terms cancel. -/
theorem hasDerivAt_bs {A B d w : ℝ → ℝ} {A' B' w' u : ℝ} (hA : HasDerivAt A A' u)
    (hB : HasDerivAt B B' u) (hw : HasDerivAt w w' u) (hd : DifferentiableAt ℝ d u)
    (heq : A u * φ (d u) = B u * φ (d u - w u)) :
    HasDerivAt (fun x => A x * Φ (d x) - B x * Φ (d x - w x))
      (A' * Φ (d u) - B' * Φ (d u - w u) + A u * φ (d u) * w') u := by
  have hd' := hd.hasDerivAt
  have h1 := hA.mul ((hasDerivAt_Φ (d u)).comp u hd')
  have h2 := hB.mul ((hasDerivAt_Φ (d u - w u)).comp u (hd'.sub hw))
  refine HasDerivAt.congr_deriv (h1.sub h2) ?_
  simp only [Function.comp]
  linear_combination (deriv d u - w') * heq

/-- The code's `d1`, as a spec-side abbreviation. -/
noncomputable abbrev D1 := GBS.d1Expr

theorem D1_eq {S K t b σ : ℝ} (ht : 0 < t) (hσ : 0 < σ) :
    σ * √t - bsA S K t b σ = D1 S K t b σ := by
  unfold bsA D1 GBS.d1Expr
  have hs : √t ≠ 0 := (sqrt_pos.2 ht).ne'
  have htt : √t ^ 2 = t := sq_sqrt ht.le
  field_simp
  rw [htt]; ring

theorem D2_eq {S K t b σ : ℝ} (ht : 0 < t) (hσ : 0 < σ) :
    -bsA S K t b σ = D1 S K t b σ - σ * √t := by
  rw [← D1_eq ht hσ]; ring

/-- The exact call value in terms of the code's `d1` and `d2`. -/
theorem bsCall_eq {S K t r b σ : ℝ} (hS : 0 < S) (hK : 0 < K) (ht : 0 < t) (hσ : 0 < σ) :
    bsCall S K t r b σ = S * exp ((b - r) * t) * Φ (D1 S K t b σ)
      - K * exp (-r * t) * Φ (D1 S K t b σ - σ * √t) := by
  rw [bsCall_closed hS hK ht hσ, D1_eq ht hσ, D2_eq ht hσ]

/-- Density identity `S e^{bt} φ(d1) = K φ(d2)`. -/
theorem density_identity {S K t r b σ : ℝ} (hS : 0 < S) (hK : 0 < K) (ht : 0 < t) (hσ : 0 < σ) :
    S * exp ((b - r) * t) * φ (D1 S K t b σ) = K * exp (-r * t) * φ (D1 S K t b σ - σ * √t) := by
  have hs : √t ≠ 0 := (sqrt_pos.2 ht).ne'
  have htt : √t ^ 2 = t := sq_sqrt ht.le
  have hd : D1 S K t b σ * (σ * √t) = log (S / K) + (b + σ * σ / 2) * t := by
    unfold D1 GBS.d1Expr; field_simp
  have e : φ (D1 S K t b σ - σ * √t)
      = φ (D1 S K t b σ) * (S / K * exp (b * t)) := by
    unfold φ
    have hl : S / K = exp (log (S / K)) := (exp_log (div_pos hS hK)).symm
    rw [div_mul_eq_mul_div, hl, ← exp_add, ← exp_add]
    congr 2
    have : (D1 S K t b σ - σ * √t) ^ 2
        = D1 S K t b σ ^ 2 - 2 * (log (S / K) + (b + σ * σ / 2) * t) + σ ^ 2 * t := by
      rw [← hd]; ring_nf; rw [htt]
    rw [this]; ring
  rw [e, show (b - r) * t = -r * t + b * t by ring, exp_add]
  field_simp

theorem bsPut_eq_call {S K t r b σ : ℝ} (ht : 0 ≤ t) :
    bsPut S K t r b σ = bsCall S K t r b σ - (S * exp ((b - r) * t) - K * exp (-r * t)) := by
  linarith [bsCall_sub_bsPut (S := S) (K := K) (r := r) (b := b) (σ := σ) ht]

section
variable {S K t r b σ : ℝ}

theorem diff_D1_S (hS : 0 < S) (hK : 0 < K) : HasDerivAt (fun s => D1 s K t b σ) (1 / (S * (σ * √t))) S := by
  unfold D1 GBS.d1Expr
  have h1 : HasDerivAt (fun s : ℝ => s / K) (1 / K) S := by simpa using (hasDerivAt_id S).div_const K
  have h2 := (h1.log (by positivity)).add_const ((b + σ * σ / 2) * t) |>.div_const (σ * √t)
  refine HasDerivAt.congr_deriv h2 ?_
  field_simp

theorem diff_D1_t (ht : 0 < t) (hσ : 0 < σ) : DifferentiableAt ℝ (fun u => D1 S K u b σ) t := by
  unfold D1 GBS.d1Expr
  have hs : √t ≠ 0 := (sqrt_pos.2 ht).ne'
  have hsq : DifferentiableAt ℝ (fun u : ℝ => √u) t := (hasDerivAt_sqrt ht.ne').differentiableAt
  refine DifferentiableAt.div (by fun_prop) (by fun_prop) (by positivity)

theorem diff_D1_σ (ht : 0 < t) (hσ : 0 < σ) : DifferentiableAt ℝ (fun s => D1 S K t b s) σ := by
  unfold D1 GBS.d1Expr
  have hs : √t ≠ 0 := (sqrt_pos.2 ht).ne'
  refine DifferentiableAt.div (by fun_prop) (by fun_prop) (by positivity)

theorem diff_D1_b : DifferentiableAt ℝ (fun s => D1 S K t s σ) b := by
  unfold D1 GBS.d1Expr
  fun_prop

theorem deriv_call_S (hS : 0 < S) (hK : 0 < K) (ht : 0 < t) (hσ : 0 < σ) :
    HasDerivAt (fun s => bsCall s K t r b σ) (exp ((b - r) * t) * Φ (D1 S K t b σ)) S := by
  have h := hasDerivAt_bs (A := fun s => s * exp ((b - r) * t)) (B := fun _ => K * exp (-r * t))
    (d := fun s => D1 s K t b σ) (w := fun _ => σ * √t) ((hasDerivAt_id S).mul_const _)
    (hasDerivAt_const S _) (hasDerivAt_const S _) (diff_D1_S hS hK).differentiableAt
    (density_identity hS hK ht hσ)
  refine HasDerivAt.congr_deriv (h.congr_of_eventuallyEq ?_) (by ring)
  filter_upwards [lt_mem_nhds hS] with s hs using bsCall_eq hs hK ht hσ

theorem deriv_call_t (hS : 0 < S) (hK : 0 < K) (ht : 0 < t) (hσ : 0 < σ) :
    HasDerivAt (fun u => bsCall S K u r b σ)
      ((b - r) * S * exp ((b - r) * t) * Φ (D1 S K t b σ)
        + r * K * exp (-r * t) * Φ (D1 S K t b σ - σ * √t)
        + S * exp ((b - r) * t) * φ (D1 S K t b σ) * (σ / (2 * √t))) t := by
  have hA : HasDerivAt (fun u => S * exp ((b - r) * u)) (S * (exp ((b - r) * t) * ((b - r) * 1))) t :=
    ((hasDerivAt_id t).const_mul (b - r)).exp.const_mul S
  have hB : HasDerivAt (fun u => K * exp (-r * u)) (K * (exp (-r * t) * (-r * 1))) t :=
    ((hasDerivAt_id t).const_mul (-r)).exp.const_mul K
  have hw : HasDerivAt (fun u => σ * √u) (σ * (1 / (2 * √t))) t :=
    (hasDerivAt_sqrt ht.ne').const_mul σ
  have h := hasDerivAt_bs hA hB hw (d := fun u => D1 S K u b σ) (diff_D1_t ht hσ)
    (density_identity hS hK ht hσ)
  refine HasDerivAt.congr_deriv (h.congr_of_eventuallyEq ?_) (by ring)
  filter_upwards [lt_mem_nhds ht] with u hu using bsCall_eq hS hK hu hσ

theorem deriv_call_σ (hS : 0 < S) (hK : 0 < K) (ht : 0 < t) (hσ : 0 < σ) :
    HasDerivAt (fun s => bsCall S K t r b s)
      (S * exp ((b - r) * t) * φ (D1 S K t b σ) * √t) σ := by
  have hw : HasDerivAt (fun s => s * √t) (1 * √t) σ := (hasDerivAt_id σ).mul_const _
  have h := hasDerivAt_bs (hasDerivAt_const σ (S * exp ((b - r) * t)))
    (hasDerivAt_const σ (K * exp (-r * t))) hw (d := fun s => D1 S K t b s) (diff_D1_σ ht hσ)
    (density_identity hS hK ht hσ)
  refine HasDerivAt.congr_deriv (h.congr_of_eventuallyEq ?_) (by ring)
  filter_upwards [lt_mem_nhds hσ] with s hs using bsCall_eq hS hK ht hs

theorem deriv_call_b (hS : 0 < S) (hK : 0 < K) (ht : 0 < t) (hσ : 0 < σ) :
    HasDerivAt (fun s => bsCall S K t r s σ)
      (t * S * exp ((b - r) * t) * Φ (D1 S K t b σ)) b := by
  have hA : HasDerivAt (fun s => S * exp ((s - r) * t)) (S * (exp ((b - r) * t) * (1 * t))) b :=
    (((hasDerivAt_id b).sub_const r).mul_const t).exp.const_mul S
  have h := hasDerivAt_bs hA (hasDerivAt_const b (K * exp (-r * t))) (hasDerivAt_const b (σ * √t))
    (d := fun s => D1 S K t s σ) diff_D1_b (density_identity hS hK ht hσ)
  refine HasDerivAt.congr_deriv (h.congr_of_eventuallyEq ?_) (by ring)
  exact Eventually.of_forall fun s => bsCall_eq hS hK ht hσ

/-- `r` and `b` moving together. -/
theorem deriv_call_rb (hS : 0 < S) (hK : 0 < K) (ht : 0 < t) (hσ : 0 < σ) :
    HasDerivAt (fun h => bsCall S K t (r + h) (b + h) σ)
      (t * K * exp (-r * t) * Φ (D1 S K t b σ - σ * √t)) 0 := by
  have hB : HasDerivAt (fun h => K * exp (-(r + h) * t)) (K * (exp (-(r + 0) * t) * (-1 * t))) 0 :=
    (((hasDerivAt_id (0:ℝ)).const_add r).neg.mul_const t).exp.const_mul K
  have hd : DifferentiableAt ℝ (fun h => D1 S K t (b + h) σ) 0 := by
    unfold D1 GBS.d1Expr; fun_prop
  have h := hasDerivAt_bs (hasDerivAt_const 0 (S * exp ((b - r) * t))) hB
    (hasDerivAt_const 0 (σ * √t)) (d := fun h => D1 S K t (b + h) σ) hd
    (by simpa using density_identity hS hK ht hσ)
  refine HasDerivAt.congr_deriv (h.congr_of_eventuallyEq ?_) (by simp only [add_zero]; ring)
  refine Eventually.of_forall fun h => ?_
  simp only
  rw [bsCall_eq hS hK ht hσ]
  rw [show (b + h - (r + h)) * t = (b - r) * t by ring]

end
end Verif
