import Verif.Lemmas.CND
import Verif.Lemmas.PolyCheck
import Mathlib.Analysis.Calculus.Deriv.MeanValue
import Mathlib.Analysis.Real.Pi.Bounds

/-!
Error analysis of the code's `_CND` (base.py:38-70).

The upper tail `1 - Φ` is squeezed between two functions `φ(x) * k * Q(k)` (`k = 1/(1+cx)`, `Q` a
polynomial fitted offline): the sign of the derivative of the difference is the sign of an explicit
integer polynomial in `k`, certified by `PolyCheck`.  Comparing these with the code's polynomial gives
the uniform bound `7.5e-8`.
-/
namespace Verif.CNDError
open Real Spec PolyCheck Filter Topology Set

/-- The constant of base.py:57, times `10^7`. -/
abbrev cI : ℤ := 2316419
noncomputable abbrev c : ℝ := 0.2316419

/-- `k` as a function of `x` for `x ≥ 0`. -/
noncomputable def kf (x : ℝ) : ℝ := 1 / (1 + c * x)

/-- `φ(x) * k * Q(k)` with `Q` an integer polynomial scaled by `10^13`. -/
noncomputable def tail (Q : List ℤ) (x : ℝ) : ℝ := φ x * (kf x * ev Q (kf x) / 10 ^ 13)

/-- `10^27 * c` times minus the logarithmic derivative quantity `-(tail Q)' / φ`, a polynomial in `k`. -/
def dPoly (Q : List ℤ) : List ℤ :=
  add (smul (10 ^ 14) (mul [1, -1] Q)) (smul (cI ^ 2) (mul [0, 0, 1] (derivFrom 1 Q)))

theorem hasDerivAt_pow_ev (q : List ℤ) (n : ℕ) (x : ℝ) :
    HasDerivAt (fun x => x ^ (n + 1) * ev q x) (x ^ n * ev (derivFrom (n + 1) q) x) x := by
  induction q generalizing n with
  | nil => simpa [ev, derivFrom] using hasDerivAt_const x (0:ℝ)
  | cons a q ih =>
    have h1 := (hasDerivAt_pow (n + 1) x).mul_const (a : ℝ)
    have h2 := h1.add (ih (n + 1))
    have e : (fun x => x ^ (n + 1) * ev (a :: q) x)
        = (fun y => y ^ (n + 1) * (a:ℝ) + y ^ (n + 1 + 1) * ev q y) := by
      funext y; simp only [ev]; ring
    rw [e]
    refine HasDerivAt.congr_deriv h2 ?_
    simp only [ev, derivFrom]; push_cast; ring

theorem hasDerivAt_kf {x : ℝ} (hx : 0 ≤ x) : HasDerivAt kf (-c * kf x ^ 2) x := by
  have h0 : (1 + c * x) ≠ 0 := by have : 0 ≤ c * x := by positivity
                                  linarith
  have h1 : HasDerivAt (fun x => 1 + c * x) c x := by
    simpa using ((hasDerivAt_id x).const_mul c).const_add 1
  have := h1.inv h0
  have e : kf = fun y => (1 + c * y)⁻¹ := by funext y; simp [kf]
  rw [e]
  refine HasDerivAt.congr_deriv this ?_
  field_simp

theorem hasDerivAt_φ (x : ℝ) : HasDerivAt φ (-x * φ x) x := by
  unfold φ
  have h : HasDerivAt (fun x : ℝ => -x ^ 2 / 2) (-x) x := by
    have := ((hasDerivAt_pow 2 x).neg.div_const 2)
    refine HasDerivAt.congr_deriv this ?_
    simp; ring
  refine HasDerivAt.congr_deriv (h.exp.div_const _) ?_
  ring

theorem kf_pos {x : ℝ} (hx : 0 ≤ x) : 0 < kf x := by
  unfold kf; positivity
theorem kf_le_one {x : ℝ} (hx : 0 ≤ x) : kf x ≤ 1 := by
  unfold kf
  rw [div_le_one (by positivity)]
  have : 0 ≤ c * x := by positivity
  linarith

theorem x_eq {x : ℝ} (hx : 0 ≤ x) : x * (c * kf x) = 1 - kf x := by
  unfold kf
  have : (1 + c * x) ≠ 0 := by positivity
  field_simp; ring

/-- Derivative of a tail function. -/
theorem hasDerivAt_tail (Q : List ℤ) {x : ℝ} (hx : 0 ≤ x) :
    HasDerivAt (tail Q) (-(φ x * (ev (dPoly Q) (kf x) / (10 ^ 27 * c)))) x := by
  have h1 := hasDerivAt_pow_ev Q 0 (kf x)
  have h2 : HasDerivAt (fun y => kf y ^ (0 + 1) * ev Q (kf y))
      ((kf x ^ 0 * ev (derivFrom (0 + 1) Q) (kf x)) * (-c * kf x ^ 2)) x :=
    HasDerivAt.comp x h1 (hasDerivAt_kf hx)
  have h3 := (hasDerivAt_φ x).mul (h2.div_const (10 ^ 13))
  have e : tail Q = φ * fun y => kf y ^ (0 + 1) * ev Q (kf y) / 10 ^ 13 := by
    funext y; simp [tail]
  rw [e]
  refine HasDerivAt.congr_deriv h3 ?_
  simp only [dPoly, ev_add, ev_smul, ev_mul, ev]
  have hxe := x_eq hx
  have hc : c ≠ 0 := by norm_num
  have hk := (kf_pos hx).ne'
  have hx2 : x = (1 - kf x) / (c * kf x) := by field_simp; linarith
  generalize kf x = k at *
  rw [hx2]
  have : (c:ℝ) = cI / 10 ^ 7 := by norm_num
  simp only [pow_zero, one_mul, zero_add, pow_one]
  push_cast
  field_simp
  ring

theorem tendsto_φ : Tendsto φ atTop (𝓝 0) := by
  unfold φ
  rw [show (0:ℝ) = 0 / √(2 * π) by simp]
  refine Tendsto.div_const ?_ _
  refine tendsto_exp_atBot.comp ?_
  have : Tendsto (fun x : ℝ => x ^ 2) atTop atTop := tendsto_pow_atTop two_ne_zero
  have := (this.const_mul_atTop (show (0:ℝ) < 1/2 by norm_num))
  refine (tendsto_neg_atTop_atBot.comp this).congr fun x => ?_
  simp; ring

theorem tendsto_kf : Tendsto kf atTop (𝓝 0) := by
  unfold kf
  simp_rw [one_div]
  refine tendsto_inv_atTop_zero.comp ?_
  exact tendsto_atTop_add_const_left _ _ (tendsto_id.const_mul_atTop (by norm_num))

theorem continuous_ev (p : List ℤ) : Continuous (ev p) := by
  induction p with
  | nil => exact continuous_const
  | cons a p ih => exact continuous_const.add (continuous_id.mul ih)

theorem tendsto_tail (Q : List ℤ) : Tendsto (tail Q) atTop (𝓝 0) := by
  have h := (continuous_ev Q).continuousAt.tendsto.comp tendsto_kf
  have h2 := tendsto_φ.mul ((tendsto_kf.mul h).div_const (10 ^ 13))
  simp only [zero_mul, zero_div, mul_zero] at h2
  exact h2

theorem tendsto_one_sub_Φ : Tendsto (fun x => 1 - Φ x) atTop (𝓝 0) := by
  simpa using tendsto_Φ_atTop.const_sub 1

/-- Comparison by derivative: a function on `[0,∞)` with nonpositive derivative vanishing at infinity is
nonnegative. -/
theorem nonneg_of_deriv_nonpos {f f' : ℝ → ℝ} (hder : ∀ y, 0 ≤ y → HasDerivAt f (f' y) y)
    (hneg : ∀ y, 0 ≤ y → f' y ≤ 0) (hlim : Tendsto f atTop (𝓝 0)) {x : ℝ} (hx : 0 ≤ x) : 0 ≤ f x := by
  have hanti : AntitoneOn f (Ici 0) := by
    refine antitoneOn_of_deriv_nonpos (convex_Ici 0)
      (fun y hy => (hder y hy).continuousAt.continuousWithinAt)
      (fun y hy => (hder y (interior_subset hy)).differentiableAt.differentiableWithinAt) ?_
    intro y hy
    rw [(hder y (interior_subset hy)).deriv]
    exact hneg y (interior_subset hy)
  exact le_of_tendsto hlim
    (eventually_atTop.2 ⟨x, fun y hy => hanti hx (mem_Ici.2 (hx.trans hy)) hy⟩)

/-- A tail function whose certificate polynomial is everywhere above `10^27 c` dominates the Gaussian
tail. -/
theorem one_sub_Φ_le_tail (Q : List ℤ)
    (hQ : ∀ k, 0 ≤ k → k ≤ 1 → (10 ^ 27 * c : ℝ) ≤ ev (dPoly Q) k) {x : ℝ} (hx : 0 ≤ x) :
    1 - Φ x ≤ tail Q x := by
  have hlim : Tendsto (fun y => tail Q y - (1 - Φ y)) atTop (𝓝 0) := by
    simpa using (tendsto_tail Q).sub tendsto_one_sub_Φ
  have := nonneg_of_deriv_nonpos (f := fun y => tail Q y - (1 - Φ y))
    (fun y hy => (hasDerivAt_tail Q hy).sub ((hasDerivAt_Φ y).const_sub 1)) ?_ hlim hx
  · linarith
  · intro y hy0
    have h1 : 1 ≤ ev (dPoly Q) (kf y) / (10 ^ 27 * c) := by
      rw [le_div_iff₀ (by norm_num)]
      have := hQ (kf y) (kf_pos hy0).le (kf_le_one hy0); linarith
    have := φ_pos y
    nlinarith

/-- A tail function whose certificate polynomial is everywhere below `10^27 c` is below the Gaussian
tail. -/
theorem tail_le_one_sub_Φ (Q : List ℤ)
    (hQ : ∀ k, 0 ≤ k → k ≤ 1 → ev (dPoly Q) k ≤ (10 ^ 27 * c : ℝ)) {x : ℝ} (hx : 0 ≤ x) :
    tail Q x ≤ 1 - Φ x := by
  have hlim : Tendsto (fun y => (1 - Φ y) - tail Q y) atTop (𝓝 0) := by
    simpa using tendsto_one_sub_Φ.sub (tendsto_tail Q)
  have := nonneg_of_deriv_nonpos (f := fun y => (1 - Φ y) - tail Q y)
    (fun y hy => ((hasDerivAt_Φ y).const_sub 1).sub (hasDerivAt_tail Q hy)) ?_ hlim hx
  · linarith
  · intro y hy0
    have h1 : ev (dPoly Q) (kf y) / (10 ^ 27 * c) ≤ 1 := by
      rw [div_le_iff₀ (by norm_num)]
      have := hQ (kf y) (kf_pos hy0).le (kf_le_one hy0); linarith
    have := φ_pos y
    nlinarith

/-- The fitted polynomial, scaled by `10^13`. -/
def qFit : List ℤ := [2316361801110, 2316635456614, 2199678852815, 1844500268056, 2182676225885,
  -979839614202, 5939820338754, -8151775826632, 9483959786536, -6627314959879, 2339223772342,
  -330784728236]

/-- The safety margin `5e-10 + 3e-5 (1-k)^12`, scaled by `10^13`. -/
def qMargin : List ℤ := add [5000] (smul 300000000 (pow [1, -1] 12))

def qHi : List ℤ := add qFit qMargin
def qLo : List ℤ := add qFit (smul (-1) qMargin)

/-- The code's polynomial divided by `k`, scaled by `10^13` (base.py:58-62). -/
def qCode : List ℤ := [3193815300000, -3565637820000, 17814779370000, -18212559780000, 13302744290000]

theorem check_hi : check 12 (add (dPoly qHi) [-(10 ^ 20 * cI)]) = true := by decide +kernel
theorem check_lo : check 12 (add [10 ^ 20 * cI] (smul (-1) (dPoly qLo))) = true := by decide +kernel

theorem c_eq : (c : ℝ) = cI / 10 ^ 7 := by norm_num

theorem Φ_tail_le {x : ℝ} (hx : 0 ≤ x) : 1 - Φ x ≤ tail qHi x := by
  refine one_sub_Φ_le_tail _ (fun k h0 h1 => ?_) hx
  have h := check_sound check_hi h0 h1
  rw [ev_add] at h
  simp only [ev] at h
  push_cast at h
  rw [c_eq]; push_cast; linarith

theorem le_Φ_tail {x : ℝ} (hx : 0 ≤ x) : tail qLo x ≤ 1 - Φ x := by
  refine tail_le_one_sub_Φ _ (fun k h0 h1 => ?_) hx
  have h := check_sound check_lo h0 h1
  rw [ev_add, ev_smul] at h
  simp only [ev] at h
  push_cast at h
  rw [c_eq]; push_cast; linarith

/-- `cI^16 2^8 8! k^16 Σ_{j≤8} (x²/2)^j / j!` as a polynomial in `k`. -/
def tPoly : List ℤ :=
  (List.range 9).foldr (fun j acc => add (smul (10 ^ (14 * j) * cI ^ (16 - 2 * j) * 2 ^ (8 - j)
    * ((8).factorial / j.factorial : ℕ)) (mul (pow [1, -1] (2 * j)) (pow [0, 1] (16 - 2 * j)))) acc) []

/-- Positivity of this polynomial on `[0,1]` gives `φ(x) k R(k) / 10^13 ≤ 7.5e-8`. -/
def bPoly (R : List ℤ) : List ℤ :=
  add (smul (75 * 250662827463) tPoly)
    (smul (-(10 ^ 7 * (cI ^ 16 * 2 ^ 8 * 40320))) (mul (pow [0, 1] 17) R))

theorem tPoly_ev {k x : ℝ} (hk : 0 < k) (hx : x * (c * k) = 1 - k) :
    ev tPoly k = (cI:ℝ) ^ 16 * 2 ^ 8 * 40320 * k ^ 16
      * ∑ j ∈ Finset.range 9, (x ^ 2 / 2) ^ j / j.factorial := by
  have h1 : 1 - k = x * k * 2316419 / 10 ^ 7 := by rw [← hx]; norm_num; ring
  have hfac : ∀ j ∈ Finset.range 9, ev (smul (10 ^ (14 * j) * cI ^ (16 - 2 * j) * 2 ^ (8 - j)
      * ((8).factorial / j.factorial : ℕ)) (mul (pow [1, -1] (2 * j)) (pow [0, 1] (16 - 2 * j)))) k
      = (cI:ℝ) ^ 16 * 2 ^ 8 * 40320 * k ^ 16 * ((x ^ 2 / 2) ^ j / j.factorial) := by
    intro j hj
    rw [ev_smul, ev_mul, ev_pow, ev_pow]
    have e1 : ev [1, -1] k = x * k * 2316419 / 10 ^ 7 := by rw [← h1]; simp [ev]; ring
    have e2 : ev [0, 1] k = k := by simp [ev]
    rw [e1, e2]
    simp only [Finset.mem_range] at hj
    interval_cases j <;> norm_num [Nat.factorial] <;> ring
  have hsum : ∀ l : List ℕ, ∀ f : ℕ → List ℤ,
      ev (l.foldr (fun j acc => add (f j) acc) []) k = (l.map fun j => ev (f j) k).sum := by
    intro l f
    induction l with
    | nil => simp [ev]
    | cons a l ih => simp [ev_add, ih]
  unfold tPoly
  rw [hsum, Finset.mul_sum, ← Finset.sum_congr rfl hfac]
  have hg : ∀ g : ℕ → ℝ, ((List.range 9).map g).sum = ∑ j ∈ Finset.range 9, g j := by
    intro g; simp [Finset.sum_range_succ, List.range_succ]; ring
  exact hg _

theorem sqrt_two_pi_gt : (2.50662827463 : ℝ) < √(2 * π) := by
  refine lt_sqrt_of_sq_lt ?_
  have := pi_gt_d20
  norm_num at this ⊢
  linarith

theorem bound_of_check {D : ℕ} (R : List ℤ) (h : check D (bPoly R) = true) {x : ℝ}
    (hx : 0 ≤ x) : tail R x ≤ 7.5e-8 := by
  have hk0 := kf_pos hx
  have h1 := check_sound h hk0.le (kf_le_one hx)
  have hx' := x_eq hx
  unfold tail φ
  generalize kf x = k at *
  simp only [bPoly, ev_add, ev_smul, ev_mul, ev_pow, tPoly_ev hk0 hx'] at h1
  have e2 : ev [0, 1] k = k := by simp [ev]
  rw [e2] at h1
  have hE := sum_le_exp_of_nonneg (x := x ^ 2 / 2) (by positivity) 9
  set sm := ∑ j ∈ Finset.range 9, (x ^ 2 / 2) ^ j / (j.factorial : ℝ) with hsm
  have hM : (0:ℝ) < (cI:ℝ) ^ 16 * 2 ^ 8 * 40320 * k ^ 16 := by positivity
  have h2 : 0 < 75 * 250662827463 * sm - 10 ^ 7 * (k * ev R k) := by
    refine (mul_pos_iff_of_pos_left hM).1 ?_
    refine lt_of_lt_of_eq h1 ?_
    push_cast; ring
  have hsm0 : 0 ≤ sm := by rw [hsm]; positivity
  have h3 := sqrt_two_pi_gt
  have hexp : exp (-x ^ 2 / 2) = (exp (x ^ 2 / 2))⁻¹ := by rw [← exp_neg]; congr 1; ring
  rw [hexp, div_mul_eq_mul_div, inv_mul_eq_div, div_div, div_le_iff₀ (by positivity)]
  calc k * ev R k / 10 ^ 13 ≤ 7.5e-8 * (2.50662827463 * sm) := by norm_num; linarith
    _ ≤ 7.5e-8 * (√(2 * π) * exp (x ^ 2 / 2)) := by gcongr
    _ = _ := by ring

theorem check_up : check 12 (bPoly (add qHi (smul (-1) qCode))) = true := by decide +kernel
theorem check_dn : check 12 (bPoly (add qCode (smul (-1) qLo))) = true := by decide +kernel

theorem tail_add (p q : List ℤ) (x : ℝ) : tail (add p q) x = tail p x + tail q x := by
  simp only [tail, ev_add]; ring
theorem tail_smul (m : ℤ) (p : List ℤ) (x : ℝ) : tail (smul m p) x = m * tail p x := by
  simp only [tail, ev_smul]; ring

/-- For positive arguments the code computes `1 - tail`. -/
theorem CND_of_pos {x : ℝ} (hx : 0 < x) : CND x = 1 - tail qCode x := by
  simp only [CND, npSign_of_pos hx, tail, NDF_eq, cndPoly, cndK, kf, abs_of_pos hx, qCode, ev]
  push_cast
  ring

/-- The code's normal distribution function is within `7.5e-8` of the exact one, everywhere. -/
theorem CND_error (x : ℝ) : |CND x - Φ x| ≤ 7.5e-8 := by
  have main : ∀ x, 0 < x → |CND x - Φ x| ≤ 7.5e-8 := by
    intro x hx
    rw [CND_of_pos hx, abs_le]
    have h1 := bound_of_check _ check_up hx.le
    have h2 := bound_of_check _ check_dn hx.le
    rw [tail_add, tail_smul] at h1 h2
    have h3 := Φ_tail_le hx.le
    have h4 := le_Φ_tail hx.le
    push_cast at h1 h2
    constructor <;> linarith
  rcases lt_trichotomy x 0 with h | h | h
  · have := main (-x) (by linarith)
    have e : CND (-x) - Φ (-x) = -(CND x - Φ x) := by
      have h1 := Φ_add_Φ_neg x
      rw [CND_neg]; linarith
    rwa [e, abs_neg] at this
  · rw [h, CND_zero, Φ_zero]; norm_num
  · exact main x h

theorem check_dcode : check 12 (dPoly qCode) = true := by decide +kernel
theorem check_code : check 12 qCode = true := by decide +kernel

theorem tail_code_pos {x : ℝ} (hx : 0 ≤ x) : 0 < tail qCode x := by
  have h := check_sound check_code (kf_pos hx).le (kf_le_one hx)
  have := φ_pos x
  have := kf_pos hx
  unfold tail; positivity

theorem tail_code_strictAnti : StrictAntiOn (tail qCode) (Ici 0) := by
  refine strictAntiOn_of_deriv_neg (convex_Ici 0)
    (fun y hy => (hasDerivAt_tail _ hy).continuousAt.continuousWithinAt) ?_
  intro y hy
  have hy0 : 0 ≤ y := interior_subset hy
  rw [(hasDerivAt_tail _ hy0).deriv]
  have h := check_sound check_dcode (kf_pos hy0).le (kf_le_one hy0)
  have := φ_pos y
  have : 0 < φ y * (ev (dPoly qCode) (kf y) / (10 ^ 27 * c)) := by positivity
  linarith

theorem tail_code_zero : tail qCode 0 < 1 / 2 := by
  have h3 : (2.50662827463 : ℝ) < √(2 * π) := sqrt_two_pi_gt
  have : tail qCode 0 = 1.253314136 / √(2 * π) := by
    simp only [tail, φ, kf, qCode, ev]; norm_num; ring
  rw [this, div_lt_iff₀ (by linarith)]
  linarith

theorem CND_pos_lt_one {x : ℝ} (hx : 0 < x) : 1 / 2 < CND x ∧ CND x < 1 := by
  rw [CND_of_pos hx]
  have h1 := tail_code_strictAnti (mem_Ici.2 le_rfl) (mem_Ici.2 hx.le) hx
  have h2 := tail_code_zero
  have h3 := tail_code_pos hx.le
  constructor <;> linarith

/-- The code's normal distribution function is strictly increasing (it jumps up at 0). -/
theorem CND_strictMono : StrictMono CND := by
  have hpos : ∀ x y, 0 < x → x < y → CND x < CND y := by
    intro x y hx hxy
    rw [CND_of_pos hx, CND_of_pos (hx.trans hxy)]
    have := tail_code_strictAnti (mem_Ici.2 hx.le) (mem_Ici.2 (hx.trans hxy).le) hxy
    linarith
  have hneg : ∀ x, x < 0 → CND x < 1 / 2 := by
    intro x hx
    have := (CND_pos_lt_one (x := -x) (by linarith)).1
    rw [CND_neg] at this; linarith
  intro x y hxy
  rcases lt_trichotomy x 0 with hx | hx | hx
  · rcases lt_trichotomy y 0 with hy | hy | hy
    · have := hpos (-y) (-x) (by linarith) (by linarith)
      rw [CND_neg, CND_neg] at this; linarith
    · rw [hy, CND_zero]; exact hneg x hx
    · exact (hneg x hx).trans (CND_pos_lt_one hy).1
  · rw [hx, CND_zero]; exact (CND_pos_lt_one (hx ▸ hxy)).1
  · exact hpos x y hx hxy

/-- The code's normal distribution function stays strictly between 0 and 1. -/
theorem CND_mem (x : ℝ) : 0 < CND x ∧ CND x < 1 := by
  rcases lt_trichotomy x 0 with h | h | h
  · have := CND_pos_lt_one (x := -x) (by linarith)
    rw [CND_neg] at this
    constructor <;> linarith
  · rw [h, CND_zero]; norm_num
  · have := CND_pos_lt_one h
    constructor <;> linarith

end Verif.CNDError
