import Verif.Lemmas.Perpetual
import Verif.Props.BS93American
import Verif.Props.AmericanLimitCall

/-!
# C110: long-dated American options and the perpetual option

`Spec.perpetualCall` and `Spec.perpetualPut` are McKean's formulas. They bound the American value at every maturity and are its
limit for long maturities; the same then holds of the lattices. The Bjerksund–Stensland price has this limit for one sign of
the cost of carry only.
-/
namespace Verif.Props
open Real Filter Verif.Spec _root_.Verif.Tree
open scoped Topology

theorem perpetual_symmetry {β K S : ℝ} (hβ : 1 < β) (hK : 0 < K) (hS : 0 < S) :
    perpetualCall β K S = perpetualPut (1 - β) S K := by
  have hβ1 : 0 < β - 1 := by linarith
  have hB : perpetualLevel β K = β / (β - 1) * K := rfl
  have hL : perpetualLevel (1 - β) S = (β - 1) / β * S := by
    unfold perpetualLevel
    rw [show 1 - β - 1 = -β by ring, show (1 - β) = -(β - 1) by ring, neg_div_neg_eq]
  have hiff : β / (β - 1) * K ≤ S ↔ K ≤ (β - 1) / β * S := by
    rw [div_mul_eq_mul_div, div_mul_eq_mul_div, div_le_iff₀ hβ1, le_div_iff₀ (by linarith)]
    constructor <;> intro h <;> linarith
  unfold perpetualCall perpetualPut
  rw [hB, hL]
  by_cases h : β / (β - 1) * K ≤ S
  · rw [if_pos h, if_pos (hiff.1 h)]
  · rw [if_neg h, if_neg (fun h' => h (hiff.2 h'))]
    have hq : 0 < (β - 1) * S / (β * K) := by positivity
    have e1 : S / (β / (β - 1) * K) = (β - 1) * S / (β * K) := by field_simp
    have e2 : K / ((β - 1) / β * S) = ((β - 1) * S / (β * K))⁻¹ := by field_simp
    rw [e1, e2, inv_rpow hq.le, ← rpow_neg hq.le, show -(1 - β) = β - 1 by ring, rpow_sub_one hq.ne']
    field_simp

theorem level_call {β K : ℝ} (hβ : 1 < β) (hK : 0 < K) : K < perpetualLevel β K := by
  have : 1 < β / (β - 1) := by rw [lt_div_iff₀ (by linarith)]; linarith
  unfold perpetualLevel
  nlinarith

/-- **C110.** The exponent `Beta` of the Bjerksund–Stensland code is the one of the perpetual call, and `BInfinity` its level. -/
theorem C110_exponent {r b σ : ℝ} (hσ : 0 < σ) (hb : b < r) :
    Stationary r b σ (BS93.beta r b σ) ∧ ∀ β, 1 < β → Stationary r b σ β → β = BS93.beta r b σ := by
  obtain ⟨h1, h2⟩ := bs_beta hσ hb
  refine ⟨h2, fun β hβ h => ?_⟩
  unfold Stationary at h
  set β' := BS93.beta r b σ
  have hσ2 : 0 < σ ^ 2 := by positivity
  have : (β - β') * (1 / 2 * σ ^ 2 * (β + β' - 1) + b) = 0 := by linear_combination h - h2
  rcases mul_eq_zero.1 this with h0 | h0
  · linarith
  · -- the sum of the roots is `1 - 2b/σ²`, and one is an upper bound for their average when `b < r`
    exfalso
    have h3 : 1 / 2 * σ ^ 2 * (β - 1) * (β' - 1) = -(r - b) := by
      linear_combination -h + (β - 1) * h0
    have := mul_pos (mul_pos (by positivity : 0 < 1 / 2 * σ ^ 2) (by linarith : 0 < β - 1)) (by linarith : 0 < β' - 1)
    linarith

/-- **C110** (calls). With `b < r` the American value is at most the perpetual one; from the perpetual level on it is the
exercise value; below, it is short of the perpetual value by at most `(B - K) (S/B) e^{-(r-b)t}`. -/
theorem C110_call {S K t r b σ β : ℝ} (h : Valid S K t σ) (hb : b < r) (hβ : 1 < β) (hs : Stationary r b σ β) :
    american true S K t r b σ ≤ perpetualCall β K S ∧
    (perpetualLevel β K ≤ S → american true S K t r b σ = S - K) ∧
    (S < perpetualLevel β K → perpetualCall β K S - (perpetualLevel β K - K) * (S / perpetualLevel β K) * exp (-(r - b) * t)
      ≤ american true S K t r b σ) := by
  have hup : american true S K t r b σ ≤ perpetualCall β K S := by
    rw [american_symmetry h.S h.K h.t.le, perpetual_symmetry hβ h.K h.S]
    refine american_put_le_perpetual ?_ (by linarith) h.S h.t.le (by linarith) h.K
    rw [← stationary_dual]
    convert hs using 1 <;> ring
  refine ⟨hup, fun hle => le_antisymm ?_ ?_, fun hlt => ?_⟩
  · unfold perpetualCall at hup
    rwa [if_pos hle] at hup
  · rw [american_symmetry h.S h.K h.t.le]
    exact american_ge_exercise_put h.K h.S h.t (by linarith) (-b) σ
  · have hKB := (level_call hβ h.K).le
    have hV := barCall_isBarrierCall (β := β) (by linarith) h.K hKB h.σ hs.powRate
    have h1 := barrierCall_ge_power hβ.le hs h.K hKB hV h.S hlt h.t
    have h2 := C97_level_call h.K hKB h.σ hb hV h.S hlt h.t
    unfold perpetualCall
    rw [if_neg (not_le.2 hlt), show -(r - b) * t = (b - r) * t by ring]
    linarith

/-- **C110** (puts), `r > 0`: bounded by the perpetual put, equal to the exercise value up to the perpetual level, and short
of the perpetual value by at most `(K - L) e^{-rt}` above. -/
theorem C110_put {S K t r b σ γ : ℝ} (h : Valid S K t σ) (hr : 0 < r) (hγ : γ < 0) (hs : Stationary r b σ γ) :
    american false S K t r b σ ≤ perpetualPut γ K S ∧
    (S ≤ perpetualLevel γ K → american false S K t r b σ = K - S) ∧
    (perpetualLevel γ K < S → perpetualPut γ K S - (K - perpetualLevel γ K) * exp (-r * t)
      ≤ american false S K t r b σ) := by
  have hs' : Stationary (r - b) (-b) σ (1 - γ) := by rw [stationary_dual]; convert hs using 1; ring
  obtain ⟨h1, h2, h3⟩ := C110_call (S := K) (K := S) (r := r - b) (b := -b) (β := 1 - γ) ⟨h.K, h.S, h.t, h.σ⟩ (by linarith)
    (by linarith) hs'
  have e := american_symmetry (r := r - b) (b := -b) (σ := σ) h.K h.S h.t.le
  rw [show r - b - -b = r by ring, neg_neg] at e
  have ep := perpetual_symmetry (β := 1 - γ) (by linarith) h.S h.K
  rw [show 1 - (1 - γ) = γ by ring] at ep
  rw [e, ep] at h1 h3
  rw [e] at h2
  have hγ1 : γ - 1 < 0 := by linarith
  have hL : perpetualLevel γ K = γ / (γ - 1) * K := rfl
  have hB : perpetualLevel (1 - γ) S = (γ - 1) / γ * S := by
    unfold perpetualLevel
    rw [show 1 - γ - 1 = -γ by ring, show (1 - γ) = -(γ - 1) by ring, neg_div_neg_eq]
  have hc : 0 < γ / (γ - 1) := div_pos_of_neg_of_neg hγ hγ1
  have hinv : (γ - 1) / γ = (γ / (γ - 1))⁻¹ := (inv_div _ _).symm
  have hlt : K < perpetualLevel (1 - γ) S ↔ perpetualLevel γ K < S := by
    rw [hB, hL, hinv, inv_mul_eq_div, lt_div_iff₀ hc, mul_comm]
  refine ⟨h1, fun hle => h2 (not_lt.1 fun hn => absurd (hlt.1 hn) (not_lt.2 hle)), fun hgt => ?_⟩
  have h4 := h3 (hlt.2 hgt)
  have e2 : (perpetualLevel (1 - γ) S - S) * (K / perpetualLevel (1 - γ) S) = K - perpetualLevel γ K := by
    have hS := h.S.ne'
    have := hγ.ne
    have := hγ1.ne
    rw [hB, hL]
    field_simp
  rw [e2, show -(r - b - -b) * t = -r * t by ring] at h4
  exact h4

/-- **C110.** Hence the American value tends to the perpetual one as the maturity grows. -/
theorem C110_limit_call {S K r b σ β : ℝ} (hS : 0 < S) (hK : 0 < K) (hσ : 0 < σ) (hb : b < r) (hβ : 1 < β)
    (hs : Stationary r b σ β) : Tendsto (fun t => american true S K t r b σ) atTop (𝓝 (perpetualCall β K S)) := by
  have hB := hK.trans (level_call hβ hK)
  have hz : Tendsto (fun t => perpetualCall β K S - (perpetualLevel β K - K) * (S / perpetualLevel β K) * exp (-(r - b) * t))
      atTop (𝓝 (perpetualCall β K S)) := by
    have h1 : Tendsto (fun t : ℝ => exp (-(r - b) * t)) atTop (𝓝 0) := by
      refine tendsto_exp_atBot.comp ?_
      exact tendsto_id.const_mul_atTop_of_neg (by linarith)
    have := (h1.const_mul ((perpetualLevel β K - K) * (S / perpetualLevel β K))).const_sub (perpetualCall β K S)
    rwa [mul_zero, sub_zero] at this
  refine tendsto_of_tendsto_of_tendsto_of_le_of_le' hz tendsto_const_nhds ?_ ?_
  · filter_upwards [eventually_gt_atTop 0] with t ht
    obtain ⟨h1, h2, h3⟩ := C110_call ⟨hS, hK, ht, hσ⟩ hb hβ hs
    rcases lt_or_ge S (perpetualLevel β K) with h | h
    · exact h3 h
    · have h0 : 0 ≤ (perpetualLevel β K - K) * (S / perpetualLevel β K) * exp (-(r - b) * t) :=
        mul_nonneg (mul_nonneg (by linarith [level_call hβ hK]) (div_pos hS hB).le) (exp_pos _).le
      have := h2 h
      unfold perpetualCall
      rw [if_pos h, this]
      linarith
  · filter_upwards [eventually_gt_atTop 0] with t ht
    exact (C110_call ⟨hS, hK, ht, hσ⟩ hb hβ hs).1

theorem C110_limit_put {S K r b σ γ : ℝ} (hS : 0 < S) (hK : 0 < K) (hσ : 0 < σ) (hr : 0 < r) (hγ : γ < 0)
    (hs : Stationary r b σ γ) : Tendsto (fun t => american false S K t r b σ) atTop (𝓝 (perpetualPut γ K S)) := by
  have hs' : Stationary (r - b) (-b) σ (1 - γ) := by rw [stationary_dual]; convert hs using 1; ring
  have h := C110_limit_call (S := K) (K := S) (r := r - b) (b := -b) (β := 1 - γ) hK hS hσ (by linarith) (by linarith) hs'
  have ep := perpetual_symmetry (β := 1 - γ) (by linarith) hS hK
  rw [show 1 - (1 - γ) = γ by ring] at ep
  rw [ep] at h
  refine h.congr' ?_
  filter_upwards [eventually_ge_atTop 0] with t ht
  have e := american_symmetry (r := r - b) (b := -b) (σ := σ) hK hS ht
  rwa [show r - b - -b = r by ring, neg_neg] at e

/-- **C110.** With enough steps every lattice put lies between the perpetual put and that bound, up to any tolerance. -/
theorem C110_trees_put (c : Cls) {S K t r b σ γ : ℝ} (h : Valid S K t σ) (hr : 0 < r) (hγ : γ < 0) (hs : Stationary r b σ γ)
    {ε : ℝ} (hε : 0 < ε) :
    ∀ᶠ n : ℕ in atTop, ∃ x, price c ⟨S, K, t, r, b, σ, "american", n⟩ false = .ok x ∧ x < perpetualPut γ K S + ε ∧
      perpetualPut γ K S - (K - perpetualLevel γ K) * exp (-r * t) - ε < x := by
  obtain ⟨h1, h2, h3⟩ := C110_put h hr hγ hs
  have hc0 : γ / (γ - 1) < 1 := by
    rw [div_lt_one_of_neg (by linarith)]; linarith
  have hKL : 0 ≤ (K - perpetualLevel γ K) * exp (-r * t) := by
    refine mul_nonneg ?_ (exp_pos _).le
    unfold perpetualLevel
    nlinarith [h.K]
  filter_upwards [C95_limit_put c h hr.le b hε] with n ⟨x, hx, hb⟩
  rw [abs_lt] at hb
  refine ⟨x, hx, by linarith, ?_⟩
  rcases lt_or_ge (perpetualLevel γ K) S with hl | hl
  · linarith [h3 hl]
  · have := h2 hl
    unfold perpetualPut
    rw [if_pos hl]
    linarith

theorem C110_trees_call (c : Cls) {S K t r b σ β : ℝ} (h : Valid S K t σ) (hb : b < r) (hβ : 1 < β)
    (hs : Stationary r b σ β) {ε : ℝ} (hε : 0 < ε) :
    ∀ᶠ n : ℕ in atTop, ∃ x, price c ⟨S, K, t, r, b, σ, "american", n⟩ true = .ok x ∧ x < perpetualCall β K S + ε ∧
      perpetualCall β K S - (perpetualLevel β K - K) * (S / perpetualLevel β K) * exp (-(r - b) * t) - ε < x := by
  obtain ⟨h1, h2, h3⟩ := C110_call h hb hβ hs
  have hB := h.K.trans (level_call hβ h.K)
  have h0 : 0 ≤ (perpetualLevel β K - K) * (S / perpetualLevel β K) * exp (-(r - b) * t) :=
    mul_nonneg (mul_nonneg (by linarith [level_call hβ h.K]) (div_pos h.S hB).le) (exp_pos _).le
  filter_upwards [C95_limit_call_classes c h (Or.inl hb.le) hε] with n ⟨x, hx, hb⟩
  rw [abs_lt] at hb
  refine ⟨x, hx, by linarith, ?_⟩
  rcases lt_or_ge S (perpetualLevel β K) with hl | hl
  · linarith [h3 hl]
  · have := h2 hl
    unfold perpetualCall
    rw [if_pos hl]
    linarith

/-! ### The Bjerksund–Stensland price -/

theorem tendsto_CND_atBot : Tendsto CND atBot (𝓝 0) := by
  have h := (CNDError.tendsto_tail CNDError.qCode).comp tendsto_neg_atBot_atTop
  refine h.congr' ?_
  filter_upwards [eventually_lt_atBot 0] with x hx
  have h1 := CNDError.CND_of_pos (show 0 < -x by linarith)
  have h2 := CND_neg x
  simp only [Function.comp]
  linarith

/-- `_bsPhi` vanishes for long maturities if the power grows more slowly than the discounting, … -/
theorem phi_limit_neg {S γ r b σ I0 : ℝ} {H I : ℝ → ℝ} (hS : 0 < S) (hI0 : 0 < I0) (hI : Tendsto I atTop (𝓝 I0))
    (hrate : -r + γ * b + 0.5 * γ * (γ - 1) * σ ^ 2 < 0) :
    Tendsto (fun T => BS93.phi S T γ (H T) (I T) r b σ) atTop (𝓝 0) := by
  set κ := 2 * b / σ ^ 2 + (2 * γ - 1) with hκ
  have hp : Tendsto (fun T => (I T / S) ^ κ) atTop (𝓝 ((I0 / S) ^ κ)) :=
    (hI.div_const S).rpow_const (Or.inl (div_pos hI0 hS).ne')
  have he : Tendsto (fun T : ℝ => exp ((-r + γ * b + 0.5 * γ * (γ - 1) * σ ^ 2) * T)) atTop (𝓝 0) :=
    tendsto_exp_atBot.comp (tendsto_id.const_mul_atTop_of_neg hrate)
  have hb := (he.mul_const (S ^ γ)).mul ((tendsto_const_nhds (x := (1 : ℝ))).add hp)
  rw [zero_mul, zero_mul] at hb
  refine squeeze_zero_norm' ?_ hb
  filter_upwards [hI.eventually (lt_mem_nhds hI0)] with T hT
  have hp0 : 0 < (I T / S) ^ κ := rpow_pos_of_pos (div_pos hT hS) _
  have hSγ := rpow_pos_of_pos hS γ
  simp only [BS93.phi]
  rw [Real.norm_eq_abs, abs_mul, abs_of_pos (mul_pos (exp_pos _) hSγ)]
  refine mul_le_mul_of_nonneg_left ?_ (mul_pos (exp_pos _) hSγ).le
  set d := -(log (S / H T) + (b + (γ - 0.5) * σ ^ 2) * T) / (σ * √T)
  obtain ⟨a1, a2⟩ := CNDError.CND_mem d
  obtain ⟨b1, b2⟩ := CNDError.CND_mem (d - 2 * log (I T / S) / (σ * √T))
  rw [abs_le]
  constructor <;> nlinarith

/-- … or as fast, with the drift in between pointing upwards. -/
theorem phi_limit_zero {S γ r b σ H0 I0 : ℝ} {H I : ℝ → ℝ} (hS : 0 < S) (hσ : 0 < σ) (hH0 : 0 < H0)
    (hH : Tendsto H atTop (𝓝 H0)) (hI0 : 0 < I0) (hI : Tendsto I atTop (𝓝 I0))
    (hrate : -r + γ * b + 0.5 * γ * (γ - 1) * σ ^ 2 = 0) (hc : 0 < b + (γ - 0.5) * σ ^ 2) :
    Tendsto (fun T => BS93.phi S T γ (H T) (I T) r b σ) atTop (𝓝 0) := by
  set κ := 2 * b / σ ^ 2 + (2 * γ - 1) with hκ
  set c := b + (γ - 0.5) * σ ^ 2 with hcd
  have hp : Tendsto (fun T => (I T / S) ^ κ) atTop (𝓝 ((I0 / S) ^ κ)) :=
    (hI.div_const S).rpow_const (Or.inl (div_pos hI0 hS).ne')
  have hl1 : Tendsto (fun T => log (S / H T)) atTop (𝓝 (log (S / H0))) :=
    (tendsto_const_nhds.div hH hH0.ne').log (div_pos hS hH0).ne'
  have hl2 : Tendsto (fun T => log (I T / S)) atTop (𝓝 (log (I0 / S))) :=
    (hI.div_const S).log (div_pos hI0 hS).ne'
  have hsq : Tendsto (fun T => σ * √T) atTop atTop := tendsto_sqrt_atTop.const_mul_atTop hσ
  have hz1 := hl1.div_atTop hsq
  have hz2 := (hl2.const_mul 2).div_atTop hsq
  have hbig : Tendsto (fun T => -(c / σ * √T)) atTop atBot :=
    tendsto_neg_atTop_atBot.comp (tendsto_sqrt_atTop.const_mul_atTop (div_pos hc hσ))
  have hd : Tendsto (fun T => -(log (S / H T) + c * T) / (σ * √T)) atTop atBot := by
    refine (hbig.atBot_add hz1.neg).congr' ?_
    filter_upwards [eventually_gt_atTop 0] with T hT
    have h1 := sqrt_pos.2 hT
    have h2 := sq_sqrt hT.le
    field_simp
    rw [h2]; ring
  have hd' : Tendsto (fun T => -(log (S / H T) + c * T) / (σ * √T) - 2 * log (I T / S) / (σ * √T)) atTop atBot := by
    have := hd.atBot_add hz2.neg
    exact this.congr fun T => by ring
  have h1 := tendsto_CND_atBot.comp hd
  have h2 := hp.mul (tendsto_CND_atBot.comp hd')
  have h3 := (h1.sub h2).const_mul (S ^ γ)
  rw [mul_zero, sub_zero, mul_zero] at h3
  refine h3.congr fun T => ?_
  simp only [BS93.phi, hrate, zero_mul, exp_zero, one_mul, Function.comp, hcd, hκ]

theorem trigger_limit {K r b σ : ℝ} (hK : 0 < K) (hσ : 0 < σ) (hb : b < r) :
    (0 ≤ b → Tendsto (fun T => BS93.trigger K T r b σ) atTop (𝓝 (perpetualLevel (BS93.beta r b σ) K))) ∧
    (b < 0 → Tendsto (fun T => BS93.trigger K T r b σ) atTop atBot) := by
  obtain ⟨h1, h2⟩ := bs_bounds hK hσ hb
  have hB : perpetualLevel (BS93.beta r b σ) K = BS93.beta r b σ / (BS93.beta r b σ - 1) * K := rfl
  set BI := BS93.beta r b σ / (BS93.beta r b σ - 1) * K with hBI
  set B0 := max K (r / (r - b) * K) with hB0
  have hB0p : 0 < B0 := hK.trans_le h1
  have hd : 0 < BI - B0 := by linarith
  have hk : 0 < B0 / (BI - B0) := div_pos hB0p hd
  have e : (fun T => BS93.trigger K T r b σ) = fun T => B0 + (BI - B0) * (1 - exp (B0 / (BI - B0) * -(b * T + 2 * σ * √T))) := by
    funext T
    simp only [BS93.trigger, ← hBI, ← hB0]
    congr 4
    ring
  rw [e, hB]
  constructor
  · intro hb0
    have hx : Tendsto (fun T => b * T + 2 * σ * √T) atTop atTop := by
      refine tendsto_atTop_mono' _ ?_ (tendsto_sqrt_atTop.const_mul_atTop (show 0 < 2 * σ by positivity))
      filter_upwards [eventually_ge_atTop 0] with T hT
      nlinarith [mul_nonneg hb0 hT]
    have h3 := tendsto_exp_atBot.comp ((tendsto_neg_atTop_atBot.comp hx).const_mul_atBot hk)
    have h4 := ((h3.const_sub 1).const_mul (BI - B0)).const_add B0
    rw [sub_zero, mul_one, show B0 + (BI - B0) = BI by ring] at h4
    exact h4
  · intro hb0
    have hx : Tendsto (fun T => -(b * T + 2 * σ * √T)) atTop atTop := by
      have h5 : Tendsto (fun T => √T * (-b * √T + -2 * σ)) atTop atTop :=
        tendsto_sqrt_atTop.atTop_mul_atTop₀ (tendsto_atTop_add_const_right _ _
          (tendsto_sqrt_atTop.const_mul_atTop (show 0 < -b by linarith)))
      refine h5.congr' ?_
      filter_upwards [eventually_ge_atTop 0] with T hT
      have := mul_self_sqrt hT
      linear_combination (-b) * this
    have h3 := tendsto_exp_atTop.comp (hx.const_mul_atTop hk)
    have h4 : Tendsto (fun T => 1 - exp (B0 / (BI - B0) * -(b * T + 2 * σ * √T))) atTop atBot := by
      have := tendsto_atBot_add_const_left atTop 1 (tendsto_neg_atTop_atBot.comp h3)
      exact this.congr fun T => by simp only [Function.comp]; ring
    exact tendsto_atBot_add_const_left _ _ (h4.const_mul_atBot hd)

/-- **C110**, partial: with `0 ≤ b < r` the Bjerksund–Stensland call tends to the perpetual call.

Missing: a negative cost of carry, for which the statement is false (`C110_bs93_call_fails`). -/
theorem C110_bs93_call_partial {S K r b σ : ℝ} (hS : 0 < S) (hK : 0 < K) (hσ : 0 < σ) (hb0 : 0 ≤ b) (hb : b < r) {ε : ℝ}
    (hε : 0 < ε) :
    ∀ᶠ t in atTop, ∃ p I, BS93.call ⟨S, K, t, r, b, some σ⟩ = .ok (p, some I) ∧
      |p - perpetualCall (BS93.beta r b σ) K S| < ε := by
  obtain ⟨hβ, hroot⟩ := bs_beta hσ hb
  set β := BS93.beta r b σ with hβd
  have hI := (trigger_limit hK hσ hb).1 hb0
  rw [← hβd] at hI
  have hB := hK.trans (level_call hβ hK)
  set B := perpetualLevel β K with hBd
  rcases lt_or_ge S B with hSB | hSB
  · have hσ2 : 0 < σ ^ 2 := by positivity
    have hc : 0 < b + (β - 0.5) * σ ^ 2 := by nlinarith
    have a1 := phi_limit_zero (γ := β) (r := r) (b := b) hS hσ hB hI hB hI (by norm_num; linear_combination hroot) hc
    have a2 := phi_limit_neg (γ := 1) (r := r) (b := b) (σ := σ) (H := fun T => BS93.trigger K T r b σ) hS hB hI
      (by norm_num; linarith)
    have a3 := phi_limit_neg (γ := 1) (r := r) (b := b) (σ := σ) (H := fun _ => K) hS hB hI (by norm_num; linarith)
    have a4 := phi_limit_neg (γ := 0) (r := r) (b := b) (σ := σ) (H := fun T => BS93.trigger K T r b σ) hS hB hI
      (by norm_num; linarith)
    have a5 := phi_limit_neg (γ := 0) (r := r) (b := b) (σ := σ) (H := fun _ => K) hS hB hI (by norm_num; linarith)
    have hα : Tendsto (fun T => (BS93.trigger K T r b σ - K) * BS93.trigger K T r b σ ^ (-β)) atTop (𝓝 ((B - K) * B ^ (-β))) :=
      (hI.sub_const K).mul (hI.rpow_const (Or.inl hB.ne'))
    have hlim : Tendsto (fun T => BS93.below S K T r b σ (BS93.trigger K T r b σ)) atTop (𝓝 (perpetualCall β K S)) := by
      have := (((((hα.mul_const (S ^ β)).sub (hα.mul a1)).add a2).sub a3).sub (a4.const_mul K)).add (a5.const_mul K)
      simp only [mul_zero, sub_zero, add_zero] at this
      have e : perpetualCall β K S = (B - K) * B ^ (-β) * S ^ β := by
        unfold perpetualCall
        rw [if_neg (not_le.2 hSB), ← hBd, div_rpow hS.le hB.le, rpow_neg hB.le]
        ring
      rw [e]
      exact this
    filter_upwards [hI.eventually (lt_mem_nhds hSB), Metric.tendsto_nhds.1 hlim ε hε] with T h1 h2
    exact ⟨_, _, (C39_call hb).1 h1, h2⟩
  · filter_upwards [eventually_ge_atTop 0] with T hT
    have h1 := (C40_trigger_partial (T := T) hK hσ hb (by positivity)).2
    refine ⟨_, _, (C39_call hb).2 (h1.le.trans hSB), ?_⟩
    unfold perpetualCall
    rw [if_pos hSB, sub_self, abs_zero]
    exact hε

/-- **C110**, partial: with `b ≤ 0 < r` the Bjerksund–Stensland put tends to the perpetual put.

Missing: a positive cost of carry, for which the statement is false (`C110_bs93_put_fails`). -/
theorem C110_bs93_put_partial {S K r b σ : ℝ} (hS : 0 < S) (hK : 0 < K) (hσ : 0 < σ) (hb0 : b ≤ 0) (hr : 0 < r) {ε : ℝ}
    (hε : 0 < ε) :
    ∀ᶠ t in atTop, ∃ p I, BS93.put ⟨S, K, t, r, b, some σ⟩ = .ok (p, some I) ∧
      |p - perpetualPut (1 - BS93.beta (r - b) (-b) σ) K S| < ε := by
  have hβ := (bs_beta (r := r - b) (b := -b) hσ (by linarith)).1
  have e := perpetual_symmetry hβ hS hK
  rw [← e]
  exact C110_bs93_call_partial (S := K) (K := S) (r := r - b) (b := -b) hK hS hσ (by linarith) (by linarith) hε

/-- The perpetual call is worth more than exercising below the level. -/
theorem perpetualCall_gt {β K S : ℝ} (hβ : 1 < β) (hK : 0 < K) (hS : 0 < S) (h : S < perpetualLevel β K) :
    S - K < perpetualCall β K S := by
  have hB := hK.trans (level_call hβ hK)
  unfold perpetualCall
  rw [if_neg (not_le.2 h)]
  set B := perpetualLevel β K with hBd
  have hKB : (B - K) * β = B := by
    rw [hBd, perpetualLevel]; field_simp [show β - 1 ≠ 0 by linarith]; ring
  have hx : 0 < S / B := by positivity
  have hx1 : S / B ≠ 1 := by rw [Ne, div_eq_one_iff_eq hB.ne']; exact h.ne
  have hBK : 0 < B - K := by nlinarith
  have h1 : 1 + β * (S / B - 1) < (S / B) ^ β := by
    have := one_add_mul_self_lt_rpow_one_add (s := S / B - 1) (by linarith) (by intro h0; exact hx1 (by linarith)) hβ
    rwa [add_sub_cancel] at this
  have h2 := mul_lt_mul_of_pos_left h1 hBK
  have h3 : B * (S / B) = S := mul_div_cancel₀ _ hB.ne'
  have h4 : (B - K) * (1 + β * (S / B - 1)) = S - K := by linear_combination (S / B - 1) * hKB + h3
  linarith

/-- **C110 fails** for calls with `b < min(r, 0)`: for every long maturity `call()` is `S - K`, whatever the spot, negative out
of the money, while the American value tends to something larger. -/
theorem C110_bs93_call_fails {S K r b σ : ℝ} (hS : 0 < S) (hK : 0 < K) (hσ : 0 < σ) (hb0 : b < 0) (hb : b < r) :
    (∀ᶠ t in atTop, ∃ I, BS93.call ⟨S, K, t, r, b, some σ⟩ = .ok (S - K, some I) ∧ I < 0) ∧
    (S < perpetualLevel (BS93.beta r b σ) K → ∃ δ > 0, ∀ᶠ t in atTop, S - K + δ < american true S K t r b σ) := by
  obtain ⟨hβ, hroot⟩ := bs_beta hσ hb
  constructor
  · filter_upwards [((trigger_limit hK hσ hb).2 hb0).eventually_lt_atBot 0] with T hT
    exact ⟨_, (C39_call hb).2 (by linarith), hT⟩
  · intro hSB
    have h1 := perpetualCall_gt hβ hK hS hSB
    refine ⟨(perpetualCall (BS93.beta r b σ) K S - (S - K)) / 2, by linarith, ?_⟩
    filter_upwards [(C110_limit_call hS hK hσ hb hβ hroot).eventually (lt_mem_nhds
      (show S - K + (perpetualCall (BS93.beta r b σ) K S - (S - K)) / 2 < _ by linarith))] with t ht
    exact ht

/-- **C110 fails** for puts with `r, b > 0`, the usual case of a stock: for every long maturity `put()` is `K - S`. -/
theorem C110_bs93_put_fails {S K r b σ : ℝ} (hS : 0 < S) (hK : 0 < K) (hσ : 0 < σ) (hb0 : 0 < b) (hr : 0 < r) :
    (∀ᶠ t in atTop, ∃ I, BS93.put ⟨S, K, t, r, b, some σ⟩ = .ok (K - S, some I) ∧ I < 0) ∧
    (K < perpetualLevel (BS93.beta (r - b) (-b) σ) S → ∃ δ > 0, ∀ᶠ t in atTop, K - S + δ < american false S K t r b σ) := by
  obtain ⟨h1, h2⟩ := C110_bs93_call_fails (S := K) (K := S) (r := r - b) (b := -b) hK hS hσ (by linarith) (by linarith)
  refine ⟨h1, fun h => ?_⟩
  obtain ⟨δ, hδ, h3⟩ := h2 h
  refine ⟨δ, hδ, ?_⟩
  filter_upwards [h3, eventually_ge_atTop 0] with t ht ht0
  have e := american_symmetry (r := r - b) (b := -b) (σ := σ) hK hS ht0
  rw [show r - b - -b = r by ring, neg_neg] at e
  rwa [e] at ht

/-- Witness: for `r = 0.06`, `b = 0.02`, `σ = 0.2` the exponent of the call is `√3`, and for `K = 40` the spot `S = 42` lies
below the perpetual level. -/
theorem C110_example : Stationary 0.06 0.02 0.2 √3 ∧ (1 : ℝ) < √3 ∧ (42 : ℝ) < perpetualLevel (√3) 40 := by
  have h := sq_sqrt (show (0:ℝ) ≤ 3 by norm_num)
  have h1 : (1 : ℝ) < √3 := by rw [lt_sqrt] <;> norm_num
  have h2 : √3 < 2 := by rw [sqrt_lt'] <;> norm_num
  refine ⟨?_, h1, ?_⟩
  · unfold Stationary; nlinarith
  · unfold perpetualLevel
    rw [div_mul_eq_mul_div, lt_div_iff₀ (by linarith)]
    linarith

/-- Witness for the failure: a put on a stock, `S = 100`, `K = 90`, `r = b = 0.1`, `σ = 0.2`: from some maturity on the price is
minus ten. -/
theorem C110_fails_example : ∀ᶠ t in atTop, ∃ I, BS93.put ⟨100, 90, t, 0.1, 0.1, some 0.2⟩ = .ok (-10, some I) := by
  filter_upwards [(C110_bs93_put_fails (S := 100) (K := 90) (r := 0.1) (b := 0.1) (σ := 0.2) (by norm_num) (by norm_num)
    (by norm_num) (by norm_num) (by norm_num)).1] with t ⟨I, h, _⟩
  exact ⟨I, by rw [h]; norm_num⟩

end Verif.Props
