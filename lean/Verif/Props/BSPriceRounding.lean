import Verif.Spec.BSPriceRounding
import Verif.Props.BSRounding

/-! C145: rounding errors of the Bjerksund–Stensland price below the trigger. -/
namespace Verif.Props
open Spec Real BSRound

/-- **C145.** In exact arithmetic the function is that of the class. -/
theorem C145_exact (S X T r b σ I : ℝ) :
    BSPriceFl.below ArithP.exact S X T r b σ I (BS93.beta r b σ) = BS93.below S X T r b σ I := by
  have hcnd : ∀ x, GBSFl.cnd ArithT.exact x = CND x := by
    intro x
    simp only [GBSFl.cnd, GBSFl.ndf, GBSFl.cndPoly, GBSFl.cndK, ArithT.exact, Arith.exact, id, CND, NDF,
      cndPoly, Verif.cndK]
  have hp : ∀ γ H, BSPriceFl.phi ArithP.exact S T γ H I r b σ = BS93.phi S T γ H I r b σ := by
    intro γ H
    have : ArithP.exact.toArithT = ArithT.exact := rfl
    simp only [BSPriceFl.phi, this, hcnd]
    rfl
  simp only [BSPriceFl.below, hp]
  rfl

theorem bsp_pos {θ x y : ℝ} (h : Rel θ x y) (hy : 0 < y) : 0 < x := by
  obtain ⟨δ, -, rfl⟩ := h
  positivity

/-- The logarithm turns a relative error into an absolute one. -/
theorem bsp_log {θ x y : ℝ} (h : Rel θ x y) (hy : 0 < y) : Err θ (log x) (log y) (|log y| + 1) := by
  have hθ := h.nonneg
  obtain ⟨δ, hδ, rfl⟩ := h
  refine ⟨?_, by linarith⟩
  rw [log_mul hy.ne' (exp_pos _).ne', log_exp, add_sub_cancel_left]
  have := add_one_le_exp θ
  nlinarith [abs_nonneg (log y)]

section
variable {e : ℝ} {A : ArithP} (hA : RoundedP e A) (he : 0 ≤ e) (he1 : e < 1)
include hA he he1

/-- A power whose base and exponent carry errors. -/
theorem bsp_rpow {θ x' x y' y B : ℝ} (hx' : 0 < x') (hx : 0 < x) (h : Err θ (log x' * y') (log x * y) B) :
    Rel ((exp θ - 1) * B + level e) (A.rpow x' y') (x ^ y) := by
  have lev : -log (1 - e) = level e := rfl
  have h1 := err_rel_exp h
  rw [← rpow_def_of_pos hx', ← rpow_def_of_pos hx] at h1
  exact (h1.round he he1 (hA.rpow _ _)).mono (by linarith)

/-- `phi` with perturbed exponent, barrier and trigger. -/
theorem bsp_phi {θ S T γ γ' H H' I I' r b σ : ℝ} (hS : 0 < S) (hT : 0 < T) (hσ : 0 < σ) (hH : 0 < H) (hI : 0 < I)
    (hγ : Rel θ γ' γ) (hH' : Rel θ H' H) (hI' : Rel θ I' I) :
    Err (claimLevel e θ S T γ H I r b σ) (BSPriceFl.phi A S T γ' H' I' r b σ) (claim S T γ H I r b σ)
      (claimSize S T γ I r b σ) := by
  have hL := kirk_level_nonneg he he1
  have lev : -log (1 - e) = level e := rfl
  have hθ := hγ.nonneg
  have s2 := Rel.of_round he he1 (hA.pow σ 2)
  have s2e := s2.err
  rw [abs_of_pos (by positivity : 0 < σ ^ 2)] at s2e
  -- the discount factor
  have m1 := ((hγ.mul (Rel.rfl' (y := b))).round he he1 (hA.mul _ _)).err
  have mr : Err (θ + level e) (-r) (-r) |r| := (Err.rfl' (by rw [abs_neg])).mono (by linarith)
  have m2 := (mr.add (m1.mono (by linarith))).round' he he1 (hA.add _ _)
  have m3 := (((Rel.rfl' (y := (0.5 : ℝ))).mul hγ).round he he1 (hA.mul _ _)).err
  have one : Err θ (1 : ℝ) 1 1 := (Err.rfl' (by norm_num)).mono hθ
  have m4 := (hγ.err.sub one).round' he he1 (hA.sub _ _)
  have m5 := (((m3.mul m4).round' he he1 (hA.mul _ _)).mul s2e).round' he he1 (hA.mul _ _)
  have m6 := ((m2.mono (θ' := 2 * θ + 5 * level e) (by linarith)).add (m5.mono (θ' := 2 * θ + 5 * level e)
    (by linarith))).round' he he1 (hA.add _ _)
  have cT : Err 0 T T T := Err.rfl' (abs_of_pos hT).le
  have m7 := ((m6.mul cT).round' he he1 (hA.mul _ _)).mono (θ' := 2 * θ + 7 * level e) (by linarith)
  have hlam : (-r + γ * b + 0.5 * γ * (γ - 1) * σ ^ 2) * T = rate T γ r b σ := by unfold rate; norm_num
  rw [hlam] at m7
  have E1 := ((err_rel_exp m7).round he he1 (z := A.exp (BSPriceFl.lamb A T γ' r b σ))
    (by rw [abs_of_pos (exp_pos _)]; exact hA.exp _))
  -- the power of the spot
  have E2 := bsp_rpow hA he he1 hS hS ((Rel.rfl' (y := log S)).mul hγ).err
  rw [zero_add] at E2
  have E12 := ((E1.mul E2).round he he1 (hA.mul _ _)).err
  rw [abs_of_pos (mul_pos (exp_pos _) (rpow_pos_of_pos hS γ))] at E12
  -- the first argument
  have d1 := (bsp_log (((Rel.rfl' (y := S)).div hH').round he he1 (hA.div _ _)) (by positivity)).round' he he1 (hA.log _)
  have half : Err θ (0.5 : ℝ) 0.5 0.5 := (Err.rfl' (by rw [abs_of_pos] <;> norm_num)).mono hθ
  have d2 := (hγ.err.sub half).round' he he1 (hA.sub _ _)
  have d3 := (d2.mul s2e).round' he he1 (hA.mul _ _)
  have cb : Err (θ + 3 * level e) b b |b| := (Err.rfl' le_rfl).mono (by linarith)
  have d4 := (cb.add (d3.mono (θ' := θ + 3 * level e) (by linarith))).round' he he1 (hA.add _ _)
  have d5 := (d4.mul cT).round' he he1 (hA.mul _ _)
  have d6 := (((d1.mono (θ' := θ + 5 * level e) (by linarith)).add (d5.mono (θ' := θ + 5 * level e)
    (by linarith))).round' he he1 (hA.add _ _)).neg
  have q := Rel.of_round he he1 (x := √T) (z := A.sqrt T) (by rw [abs_of_nonneg (sqrt_nonneg _)]; exact hA.sqrt _)
  have hs : 0 < σ * √T := mul_pos hσ (sqrt_pos.2 hT)
  have q2 := ((Rel.rfl' (y := σ)).mul q).round he he1 (hA.mul _ _)
  have q3 := q2.inv.err
  rw [abs_of_pos (inv_pos.2 hs)] at q3
  have d7 := d6.mul q3
  rw [← div_eq_mul_inv, ← div_eq_mul_inv, ← div_eq_mul_inv] at d7
  have d8 := (d7.round' he he1 (hA.div _ _)).mono (θ' := θ + 9 * level e) (by linarith)
  -- the second argument
  have iS := ((hI'.div (Rel.rfl' (y := S))).round he he1 (hA.div _ _)).mono (θ' := θ + level e) (by linarith)
  have hiS : 0 < I / S := by positivity
  have hiS' := bsp_pos iS hiS
  have li := bsp_log iS hiS
  have c2 : Err 0 (2 : ℝ) 2 2 := Err.rfl' (by norm_num)
  have f1 := (c2.mul (li.round' he he1 (hA.log _))).round' he he1 (hA.mul _ _)
  have f2 := f1.mul q3
  rw [← div_eq_mul_inv, ← div_eq_mul_inv, ← div_eq_mul_inv] at f2
  have f3 := (f2.round' he he1 (hA.div _ _)).mono (θ' := θ + 9 * level e) (by linarith)
  have f4 := ((d8.sub f3).round' he he1 (hA.sub _ _)).mono (θ' := θ + 10 * level e) (by linarith)
  have half2 : (0.5 : ℝ) = 1 / 2 := by norm_num
  have harg : -(log (S / H) + (b + (γ - 0.5) * σ ^ 2) * T) / (σ * √T) = arg S T γ H b σ := by
    unfold arg; rw [half2]
  rw [harg] at d8 f4
  have hθ10 : 0 ≤ θ + 10 * level e := by linarith
  have hz : 0 ≤ 2 * (|log (I / S)| + 1) / (σ * √T) := by positivity
  have N1 := cnd_near hA.toRoundedT he he1 hθ10 ((d8.mono (θ' := θ + 10 * level e) (by linarith)).weaken hθ10
    (B' := argSize S T γ H I b σ) (by unfold argSize; linarith))
  have N2 := cnd_near hA.toRoundedT he he1 hθ10 f4
  -- the power of the ratio
  have k1 := ((((Rel.of_round he he1 (hA.mul 2 b)).div s2).round he he1 (hA.div _ _))).err
  have k2 := (((Rel.rfl' (y := (2 : ℝ))).mul hγ).round he he1 (hA.mul _ _)).err
  have one' : Err (θ + level e) (1 : ℝ) 1 1 := (Err.rfl' (by norm_num)).mono (by linarith)
  have k3 := ((k2.mono (θ' := θ + level e) (by linarith)).sub one').round' he he1 (hA.sub _ _)
  have k4 := ((k1.mono (θ' := θ + 3 * level e) (by linarith)).add (k3.mono (θ' := θ + 3 * level e) (by linarith))).round'
    he he1 (hA.add _ _)
  have k5 := (li.mul k4).mono (θ' := 2 * θ + 5 * level e) (by linarith)
  have P := (bsp_rpow hA he he1 hiS' hiS k5).err
  rw [abs_of_pos (rpow_pos_of_pos hiS _)] at P
  have PN := (P.mul N2).round' he he1 (hA.mul _ _)
  rw [mul_one] at PN
  have hp0 : 0 ≤ (exp (2 * θ + 5 * level e) - 1) * reflectSize S γ I b σ := by
    have := one_le_exp (by linarith : 0 ≤ 2 * θ + 5 * level e)
    have h2 : 0 ≤ reflectSize S γ I b σ := by unfold reflectSize; positivity
    exact mul_nonneg (by linarith) h2
  set ν := log (1 + cndErr e θ (argSize S T γ H I b σ)) with hν
  have W := ((N1.mono (θ' := (exp (2 * θ + 5 * level e) - 1) * reflectSize S γ I b σ + ν + 2 * level e)
    (by rw [hν]; unfold cndErr; linarith)).sub
    (PN.mono (θ' := (exp (2 * θ + 5 * level e) - 1) * reflectSize S γ I b σ + ν + 2 * level e)
    (by rw [hν]; unfold cndErr argSize reflectSize; linarith))).round' he he1 (hA.sub _ _)
  have R := (E12.mul W).round' he he1 (hA.mul _ _)
  refine R.mono ?_
  unfold claimLevel rateSize
  rw [← hν]
  linarith

/-- **C145.** The price below the trigger, for perturbed trigger and exponent. -/
theorem C145_below {θ S X T r b σ I I' β β' : ℝ} (hS : 0 < S) (hX : 0 < X) (hT : 0 < T) (hσ : 0 < σ) (hI : 0 < I)
    (hβ : Rel θ β' β) (hI' : Rel θ I' I) :
    |BSPriceFl.below A S X T r b σ I' β' - held S X T r b σ I β|
      ≤ (exp (heldLevel e θ S X T r b σ I β) - 1) * heldSize S X T r b σ I β := by
  have hL := kirk_level_nonneg he he1
  have lev : -log (1 - e) = level e := rfl
  have hθ := hβ.nonneg
  have r1 : Rel θ (1 : ℝ) 1 := Rel.rfl'.mono hθ
  have r0 : Rel θ (0 : ℝ) 0 := Rel.rfl'.mono hθ
  have rX : Rel θ X X := Rel.rfl'.mono hθ
  set Λ := claimsLevel e θ S X T r b σ I β with hΛ
  have pβ := (bsp_phi hA he he1 (r := r) (b := b) hS hT hσ hI hI hβ hI' hI').mono (θ' := Λ) (le_max_left _ _)
  have p1I := (bsp_phi hA he he1 (r := r) (b := b) hS hT hσ hI hI r1 hI' hI').mono (θ' := Λ)
    ((le_max_left _ _).trans ((le_max_left _ _).trans (le_max_right _ _)))
  have p1X := (bsp_phi hA he he1 (r := r) (b := b) hS hT hσ hX hI r1 rX hI').mono (θ' := Λ)
    ((le_max_right _ _).trans ((le_max_left _ _).trans (le_max_right _ _)))
  have p0I := (bsp_phi hA he he1 (r := r) (b := b) hS hT hσ hI hI r0 hI' hI').mono (θ' := Λ)
    ((le_max_left _ _).trans ((le_max_right _ _).trans (le_max_right _ _)))
  have p0X := (bsp_phi hA he he1 (r := r) (b := b) hS hT hσ hX hI r0 rX hI').mono (θ' := Λ)
    ((le_max_right _ _).trans ((le_max_right _ _).trans (le_max_right _ _)))
  -- the coefficient
  have iE := hI'.err
  rw [abs_of_pos hI] at iE
  have cX : Err θ X X X := (Err.rfl' (abs_of_pos hX).le).mono hθ
  have a1 := (iE.sub cX).round' he he1 (hA.sub _ _)
  have a2 := (bsp_log hI' hI).mul hβ.neg.err
  rw [abs_neg] at a2
  have a3 := (bsp_rpow hA he he1 (bsp_pos hI' hI) hI (a2.mono (θ' := 2 * θ) (by linarith))).err
  rw [abs_of_pos (rpow_pos_of_pos hI _)] at a3
  have a4 := ((a1.mul a3).round' he he1 (hA.mul _ _)).mono (θ' := coefLevel e θ I β) (by unfold coefLevel; linarith)
  have h2θ := one_le_exp (by linarith : 0 ≤ 2 * θ)
  have hc : 0 ≤ coefLevel e θ I β := by
    have := mul_nonneg (sub_nonneg.2 h2θ) (by positivity : 0 ≤ (|log I| + 1) * |β|)
    unfold coefLevel; linarith
  -- the power of the spot
  have b1 := (bsp_rpow hA he he1 hS hS ((Rel.rfl' (y := log S)).mul hβ).err).err
  rw [zero_add, abs_of_pos (rpow_pos_of_pos hS _)] at b1
  have hle : (exp θ - 1) * |log S * β| + level e ≤ Λ := by
    refine le_trans ?_ (le_max_left _ _)
    unfold claimLevel
    have e1 := one_le_exp (by linarith : 0 ≤ 2 * θ + 7 * level e)
    have e2 := one_le_exp (by linarith : 0 ≤ 2 * θ + 5 * level e)
    have e3 := one_le_exp (by linarith : 0 ≤ 39 * level e)
    have e4 := one_le_exp (by linarith : 0 ≤ θ + 10 * level e)
    have n1 := mul_nonneg (sub_nonneg.2 e1) (by unfold rateSize; positivity : 0 ≤ rateSize T β r b σ)
    have n2 := mul_nonneg (sub_nonneg.2 e2) (by unfold reflectSize; positivity : 0 ≤ reflectSize S β I b σ)
    have n3 := mul_nonneg (sub_nonneg.2 e4) (by unfold argSize; positivity : 0 ≤ argSize S T β I I b σ)
    have n4 : 0 ≤ log (1 + cndErr e θ (argSize S T β I I b σ)) := log_nonneg (by unfold cndErr; linarith)
    linarith
  have hΛ0 : 0 ≤ Λ := by
    have := mul_nonneg (sub_nonneg.2 (one_le_exp hθ)) (abs_nonneg (log S * β))
    linarith
  -- the sum
  have y1 := ((a4.mul b1).round' he he1 (hA.mul _ _)).mono (θ' := coefLevel e θ I β + Λ + level e) (by linarith)
  have y2 := ((a4.mul pβ).round' he he1 (hA.mul _ _)).mono (θ' := coefLevel e θ I β + Λ + level e) (by linarith)
  have z2 := ((y1.sub y2).round' he he1 (hA.sub _ _)).mono (θ' := coefLevel e θ I β + Λ + 2 * level e) (by linarith)
  have z3 := ((z2.add (p1I.mono (by linarith))).round' he he1 (hA.add _ _)).mono
    (θ' := coefLevel e θ I β + Λ + 3 * level e) (by linarith)
  have z4 := ((z3.sub (p1X.mono (by linarith))).round' he he1 (hA.sub _ _)).mono
    (θ' := coefLevel e θ I β + Λ + 4 * level e) (by linarith)
  have cX0 : Err 0 X X X := Err.rfl' (abs_of_pos hX).le
  have y5 := (cX0.mul p0I).round' he he1 (hA.mul _ _)
  have y6 := (cX0.mul p0X).round' he he1 (hA.mul _ _)
  have z5 := ((z4.sub (y5.mono (by linarith))).round' he he1 (hA.sub _ _)).mono
    (θ' := coefLevel e θ I β + Λ + 5 * level e) (by linarith)
  have z6 := ((z5.add (y6.mono (by linarith))).round' he he1 (hA.add _ _)).mono
    (θ' := heldLevel e θ S X T r b σ I β) (by unfold heldLevel; rw [← hΛ]; linarith)
  exact z6.err

open Classical in
/-- **C145.** For every spot below the band around the trigger, the rounded program returns the value of the option held
to the trigger, up to the bound. -/
theorem C145_price {S X T r b σ : ℝ} (hS : 0 < S) (hX : 0 < X) (hT : 0 < T) (hσ : 0 < σ) (hb : b < r)
    (h1 : radErr e r b σ < 1) (h2 : expoErr e r b σ < 1) (h3 : gapErr e X r b σ < 1)
    (hI : 0 < boundary X T r b σ) (h4 : band e X T r b σ / boundary X T r b σ < 1)
    (hlt : S < boundary X T r b σ - band e X T r b σ) :
    ∃ v, BSPriceFl.price A S X T r b σ = some v ∧
      |v - held S X T r b σ (boundary X T r b σ) (expo r b σ)|
        ≤ (exp (heldLevel e (inputLevel e X T r b σ) S X T r b σ (boundary X T r b σ) (expo r b σ)) - 1)
          * heldSize S X T r b σ (boundary X T r b σ) (expo r b σ) := by
  have hA' := hA.toRounded
  have hL := kirk_level_nonneg he he1
  have lev : -log (1 - e) = level e := rfl
  have ht := C144_trigger hA' he he1 (T := T) hX hσ hb h1 h2 h3
  have hI' : Rel (level (band e X T r b σ / boundary X T r b σ)) (BSFl.trigger A.toArith X T r b σ) (boundary X T r b σ) :=
    rel_of_abs hI h4 (by rwa [div_mul_cancel₀ _ hI.ne'])
  have hβ := bsr_beta hA' he he1 hσ hb h1 h2
  obtain ⟨l, -⟩ := abs_le.1 ht
  have n1 := hI'.nonneg
  have n2 := hβ.nonneg
  refine ⟨_, ?_, C145_below hA he he1 hS hX hT hσ hI (θ := inputLevel e X T r b σ)
    (hβ.mono (by unfold inputLevel; linarith)) (hI'.mono (by unfold inputLevel; linarith))⟩
  rw [BSPriceFl.price, if_neg (not_le.2 hb), if_neg (by simp only [ge_iff_le]; linarith)]

/-- **C145.** Every spot, inside the band too: the function returns a price, which is the exercise value up to one rounding (only
for spots above the lower end of the band) or near the value of holding on (only for spots below the upper end). -/
theorem C145_every_spot {S X T r b σ : ℝ} (hS : 0 < S) (hX : 0 < X) (hT : 0 < T) (hσ : 0 < σ) (hb : b < r)
    (h1 : radErr e r b σ < 1) (h2 : expoErr e r b σ < 1) (h3 : gapErr e X r b σ < 1)
    (hI : 0 < boundary X T r b σ) (h4 : band e X T r b σ / boundary X T r b σ < 1) :
    ∃ v, BSPriceFl.price A S X T r b σ = some v ∧
      ((boundary X T r b σ - band e X T r b σ ≤ S ∧ |v - (S - X)| ≤ e * |S - X|) ∨
       (S < boundary X T r b σ + band e X T r b σ ∧ |v - held S X T r b σ (boundary X T r b σ) (expo r b σ)|
          ≤ (exp (heldLevel e (inputLevel e X T r b σ) S X T r b σ (boundary X T r b σ) (expo r b σ)) - 1)
            * heldSize S X T r b σ (boundary X T r b σ) (expo r b σ))) := by
  have hA' := hA.toRounded
  have ht := C144_trigger hA' he he1 (T := T) hX hσ hb h1 h2 h3
  have hI' : Rel (level (band e X T r b σ / boundary X T r b σ)) (BSFl.trigger A.toArith X T r b σ) (boundary X T r b σ) :=
    rel_of_abs hI h4 (by rwa [div_mul_cancel₀ _ hI.ne'])
  have hβ := bsr_beta hA' he he1 hσ hb h1 h2
  obtain ⟨l, u⟩ := abs_le.1 ht
  have n1 := hI'.nonneg
  have n2 := hβ.nonneg
  rw [BSPriceFl.price, if_neg (not_le.2 hb)]
  by_cases h : S ≥ BSFl.trigger A.toArith X T r b σ
  · exact ⟨A.sub S X, if_pos h, Or.inl ⟨by linarith, hA'.sub S X⟩⟩
  · have hlt := not_le.1 h
    exact ⟨_, if_neg h, Or.inr ⟨by linarith, C145_below hA he he1 hS hX hT hσ hI (θ := inputLevel e X T r b σ)
      (hβ.mono (by unfold inputLevel; linarith)) (hI'.mono (by unfold inputLevel; linarith))⟩⟩

end

/-- A claim in double precision. -/
theorem bsp_level {e θ S T γ H I r b σ : ℝ} (hl0 : 0 ≤ level e) (hL : level e ≤ 2.4e-16) (hθ : 0 ≤ θ) (hθ1 : θ ≤ 5e-10)
    (hS : 0 < S) (hI : 0 < I) (hT : 0 < T) (hσ : 0 < σ) (k1 : rateSize T γ r b σ ≤ 12) (k2 : |log S * γ| ≤ 12)
    (k3 : reflectSize S γ I b σ ≤ 12) (k4 : argSize S T γ H I b σ ≤ 30) :
    claimLevel e θ S T γ H I r b σ ≤ 1.6e-7 := by
  have r1 : 0 ≤ rateSize T γ r b σ := by unfold rateSize; positivity
  have r3 : 0 ≤ reflectSize S γ I b σ := by unfold reflectSize; positivity
  have r4 : 0 ≤ argSize S T γ H I b σ := by unfold argSize; positivity
  have a1 := kirk_exp_sub_one_le (x := 2 * θ + 7 * level e) (by linarith) (by linarith)
  have a2 := kirk_exp_sub_one_le hθ (by linarith)
  have a3 := kirk_exp_sub_one_le (x := 2 * θ + 5 * level e) (by linarith) (by linarith)
  have a4 := kirk_exp_sub_one_le (x := θ + 10 * level e) (by linarith) (by linarith)
  have a5 := kirk_exp_sub_one_le (x := 39 * level e) (by linarith) (by linarith)
  have b4 := one_le_exp (by linarith : 0 ≤ θ + 10 * level e)
  have b5 := one_le_exp (by linarith : 0 ≤ 39 * level e)
  have m1 : (exp (2 * θ + 7 * level e) - 1) * rateSize T γ r b σ ≤ 2.1e-9 * 12 :=
    mul_le_mul (by linarith) k1 r1 (by norm_num)
  have m2 : (exp θ - 1) * |log S * γ| ≤ 1e-9 * 12 := mul_le_mul (by linarith) k2 (abs_nonneg _) (by norm_num)
  have m3 : (exp (2 * θ + 5 * level e) - 1) * reflectSize S γ I b σ ≤ 2.1e-9 * 12 :=
    mul_le_mul (by linarith) k3 r3 (by norm_num)
  have m4 : (exp (θ + 10 * level e) - 1) * argSize S T γ H I b σ ≤ 1.1e-9 * 30 :=
    mul_le_mul (by linarith) k4 r4 (by norm_num)
  have m40 := mul_nonneg (sub_nonneg.2 b4) r4
  have hc : cndErr e θ (argSize S T γ H I b σ) ≤ 9e-8 := by unfold cndErr; linarith
  have hc0 : 0 ≤ cndErr e θ (argSize S T γ H I b σ) := by unfold cndErr; linarith
  have hlog := log_le_sub_one_of_pos (by linarith : 0 < 1 + cndErr e θ (argSize S T γ H I b σ))
  unfold claimLevel
  linarith

open Classical in
/-- **C145.** In double precision: if no cancellation in the trigger exceeds a factor of four, the terms of every exponent
add up to at most twelve and those of the arguments of the distribution function to at most thirty, the error of the price
of an option that is not exercised is below `4e-7` of the terms of the price. -/
theorem C145_double {e : ℝ} {A : ArithP} (hA : RoundedP e A) (he : 0 ≤ e) (he1 : e ≤ 2⁻¹ ^ 53) {S X T r b σ : ℝ} (hS : 0 < S)
    (hX : 0 < X) (hT : 0 < T) (hσ : 0 < σ) (hb : b < r) (hI : 0 < boundary X T r b σ) (c1 : condRad r b σ ≤ 4)
    (c2 : condExpo r b σ ≤ 4) (c3 : condGap X r b σ ≤ 4) (c4 : fallSize X T r b σ ≤ 1)
    (c5 : triggerSize X T r b σ ≤ 4 * boundary X T r b σ) (c6 : (|log (boundary X T r b σ)| + 1) * |expo r b σ| ≤ 12)
    (c7 : ∀ γ, γ = expo r b σ ∨ γ = 1 ∨ γ = 0 → rateSize T γ r b σ ≤ 12 ∧ |log S * γ| ≤ 12 ∧
      reflectSize S γ (boundary X T r b σ) b σ ≤ 12 ∧
      ∀ H, H = boundary X T r b σ ∨ H = X → argSize S T γ H (boundary X T r b σ) b σ ≤ 30)
    (hlt : S < (1 - 1e-9) * boundary X T r b σ) :
    ∃ v, BSPriceFl.price A S X T r b σ = some v ∧
      |v - held S X T r b σ (boundary X T r b σ) (expo r b σ)|
        ≤ 4e-7 * heldSize S X T r b σ (boundary X T r b σ) (expo r b σ) := by
  have he53 : e ≤ 1.2e-16 := he1.trans (by norm_num)
  have hlt1 : e < 1 := by linarith
  have hl0 : 0 ≤ level e := kirk_level_nonneg he hlt1
  have hL : level e ≤ 2.4e-16 := (kirk_level_le he (by linarith)).trans (by linarith)
  have hR := bsr_rad_pos hσ hb
  have hβ : 1 < expo r b σ := (bs_beta hσ hb).1
  have hβ1 : 0 < expo r b σ - 1 := by linarith
  obtain ⟨o1, o2⟩ : X ≤ low X r b ∧ low X r b < high X r b σ := bs_bounds hX hσ hb
  have o3 : 0 < low X r b := by linarith
  have o4 : 0 < high X r b σ := by linarith
  have hm : 0 < high X r b σ - low X r b := by linarith
  have k1 : 0 ≤ condRad r b σ := by unfold condRad; positivity
  have k2 : 0 ≤ condExpo r b σ := by unfold condExpo; positivity
  have k3 : 0 ≤ condGap X r b σ := by unfold condGap; positivity
  have k4 : 0 ≤ fallSize X T r b σ := by unfold fallSize; positivity
  have h8 := kirk_exp_sub_one_le (x := 8 * level e) (by linarith) (by linarith)
  have h8n := one_le_exp (by linarith : 0 ≤ 8 * level e)
  have a0 : 0 ≤ radErr e r b σ := mul_nonneg (by linarith) k1
  have a1 : radErr e r b σ ≤ 3.84e-15 * 4 := mul_le_mul (by linarith) c1 k1 (by norm_num)
  have a2 : level (radErr e r b σ) ≤ _ := kirk_level_le a0 (by linarith)
  have a3 : 0 ≤ level (radErr e r b σ) := kirk_level_nonneg a0 (by linarith)
  have a4 : radLevel e r b σ ≤ 1.57e-14 := by unfold radLevel; linarith
  have a5 : 0 ≤ radLevel e r b σ := by unfold radLevel; linarith
  have h5 := kirk_exp_sub_one_le (x := radLevel e r b σ + 5 * level e) (by linarith) (by linarith)
  have h5n := one_le_exp (by linarith : 0 ≤ radLevel e r b σ + 5 * level e)
  have b0 : 0 ≤ expoErr e r b σ := mul_nonneg (by linarith) k2
  have b1 : expoErr e r b σ ≤ 3.4e-14 * 4 := mul_le_mul (by linarith) c2 k2 (by norm_num)
  have b2 : level (expoErr e r b σ) ≤ _ := kirk_level_le b0 (by linarith)
  have b3 : 0 ≤ level (expoErr e r b σ) := kirk_level_nonneg b0 (by linarith)
  have b4 : highLevel e r b σ ≤ 5.5e-13 := by unfold highLevel; linarith
  have b5 : 0 ≤ highLevel e r b σ := by unfold highLevel; linarith
  have h4 := kirk_exp_sub_one_le (x := highLevel e r b σ + 4 * level e) (by linarith) (by linarith)
  have h4n := one_le_exp (by linarith : 0 ≤ highLevel e r b σ + 4 * level e)
  have d0 : 0 ≤ gapErr e X r b σ := mul_nonneg (by linarith) k3
  have d1 : gapErr e X r b σ ≤ 1.11e-12 * 4 := mul_le_mul (by linarith) c3 k3 (by norm_num)
  have d2 : level (gapErr e X r b σ) ≤ _ := kirk_level_le d0 (by linarith)
  have d3 : 0 ≤ level (gapErr e X r b σ) := kirk_level_nonneg d0 (by linarith)
  have h9 := kirk_exp_sub_one_le (x := level (gapErr e X r b σ) + 9 * level e) (by linarith) (by linarith)
  have h9n := one_le_exp (by linarith : 0 ≤ level (gapErr e X r b σ) + 9 * level e)
  have f0 : 0 ≤ (exp (level (gapErr e X r b σ) + 9 * level e) - 1) * fallSize X T r b σ := mul_nonneg (by linarith) k4
  have f1 : (exp (level (gapErr e X r b σ) + 9 * level e) - 1) * fallSize X T r b σ ≤ 1.8e-11 * 1 :=
    mul_le_mul (by linarith) c4 k4 (by norm_num)
  have t0 : 0 ≤ triggerLevel e X T r b σ := by unfold triggerLevel fallLevel; linarith
  have t1 : triggerLevel e X T r b σ ≤ 2.8e-11 := by unfold triggerLevel fallLevel; linarith
  have t2 := kirk_exp_sub_one_le t0 (by linarith)
  have t3 := one_le_exp t0
  have hg : 0 ≤ triggerSize X T r b σ := by unfold triggerSize; positivity
  have hB0 : 0 ≤ band e X T r b σ := mul_nonneg (by linarith) hg
  have hB : band e X T r b σ ≤ 2.4e-10 * boundary X T r b σ :=
    calc band e X T r b σ ≤ 5.6e-11 * (4 * boundary X T r b σ) := mul_le_mul (by linarith) c5 hg (by norm_num)
      _ ≤ _ := by linarith
  have hq0 : 0 ≤ band e X T r b σ / boundary X T r b σ := by positivity
  have hq : band e X T r b σ / boundary X T r b σ ≤ 2.4e-10 := by rwa [div_le_iff₀ hI]
  have q1 := kirk_level_le hq0 (by linarith)
  have q2 := kirk_level_nonneg hq0 (by linarith)
  have i0 : 0 ≤ inputLevel e X T r b σ := by unfold inputLevel; linarith
  have i1 : inputLevel e X T r b σ ≤ 5e-10 := by unfold inputLevel; linarith
  obtain ⟨v, hv, hE⟩ := C145_price hA he hlt1 hS hX hT hσ hb (by linarith) (by linarith) (by linarith) hI (by linarith)
    (by linarith)
  refine ⟨v, hv, hE.trans ?_⟩
  have lv : ∀ γ, γ = expo r b σ ∨ γ = 1 ∨ γ = 0 → ∀ H, H = boundary X T r b σ ∨ H = X →
      claimLevel e (inputLevel e X T r b σ) S T γ H (boundary X T r b σ) r b σ ≤ 1.6e-7 := fun γ hγ H hH => by
    obtain ⟨u1, u2, u3, u4⟩ := c7 γ hγ
    exact bsp_level hl0 hL i0 i1 hS hI hT hσ u1 u2 u3 (u4 H hH)
  have hΛ : claimsLevel e (inputLevel e X T r b σ) S X T r b σ (boundary X T r b σ) (expo r b σ) ≤ 1.6e-7 := by
    unfold claimsLevel
    refine max_le (lv _ (.inl rfl) _ (.inl rfl)) (max_le (max_le ?_ ?_) (max_le ?_ ?_))
    · exact lv _ (.inr (.inl rfl)) _ (.inl rfl)
    · exact lv _ (.inr (.inl rfl)) _ (.inr rfl)
    · exact lv _ (.inr (.inr rfl)) _ (.inl rfl)
    · exact lv _ (.inr (.inr rfl)) _ (.inr rfl)
  have w1 := kirk_exp_sub_one_le (x := 2 * inputLevel e X T r b σ) (by linarith) (by linarith)
  have w2 : (exp (2 * inputLevel e X T r b σ) - 1) * ((|log (boundary X T r b σ)| + 1) * |expo r b σ|) ≤ 2e-9 * 12 :=
    mul_le_mul (by linarith) c6 (by positivity) (by norm_num)
  have hH : heldLevel e (inputLevel e X T r b σ) S X T r b σ (boundary X T r b σ) (expo r b σ) ≤ 1.9e-7 := by
    unfold heldLevel coefLevel; linarith
  have hsz : 0 ≤ heldSize S X T r b σ (boundary X T r b σ) (expo r b σ) := by
    have hi : 0 < boundary X T r b σ / S := by positivity
    have hc : ∀ γ, 0 ≤ claimSize S T γ (boundary X T r b σ) r b σ := fun γ => by
      unfold claimSize
      have := rpow_pos_of_pos hS γ
      have := rpow_pos_of_pos hi (reflect γ b σ)
      positivity
    have h1 := hc (expo r b σ)
    have h2 := hc 1
    have h3 := hc 0
    have := rpow_pos_of_pos hS (expo r b σ)
    have := rpow_pos_of_pos hI (-expo r b σ)
    unfold heldSize
    positivity
  refine mul_le_mul_of_nonneg_right ?_ hsz
  have : exp (heldLevel e (inputLevel e X T r b σ) S X T r b σ (boundary X T r b σ) (expo r b σ)) ≤ exp 1.9e-7 :=
    exp_le_exp.2 hH
  have := kirk_exp_sub_one_le (x := 1.9e-7) (by norm_num) (by norm_num)
  linarith

/-- An arithmetic that rounds every result away from zero. -/
noncomputable def biasedP (e : ℝ) : ArithP := { biased e with rpow := fun x y => x ^ y * (1 + e) }

/-- Sizes at the parameters of the example. -/
theorem bsp_demo {γ I : ℝ} (g0 : 0 ≤ γ) (g1 : γ ≤ 1.99) (hI : |log (I / 42)| ≤ 1) (lS : |log 42| ≤ 4)
    (hs : 0.3 ≤ (0.35 : ℝ) * √0.75) :
    rateSize 0.75 γ 0.04 (-0.04) 0.35 ≤ 12 ∧ |log 42 * γ| ≤ 12 ∧ reflectSize 42 γ I (-0.04) 0.35 ≤ 12 ∧
      ∀ H, |log (42 / H)| ≤ 1 → argSize 42 0.75 γ H I (-0.04) 0.35 ≤ 30 := by
  refine ⟨?_, ?_, ?_, ?_⟩
  · unfold rateSize
    rw [abs_of_pos (by norm_num : (0 : ℝ) < 0.04), abs_of_nonpos (by linarith : γ * -0.04 ≤ 0),
      abs_of_nonneg (by linarith : 0 ≤ 0.5 * γ), abs_of_nonneg g0]
    have : γ * γ ≤ 1.99 * 1.99 := mul_le_mul g1 g1 g0 (by norm_num)
    linarith
  · rw [abs_mul, abs_of_nonneg g0]
    calc |log 42| * γ ≤ 4 * 1.99 := mul_le_mul lS g1 g0 (by norm_num)
      _ ≤ 12 := by norm_num
  · unfold reflectSize
    rw [abs_of_nonneg (by linarith : 0 ≤ 2 * γ), abs_of_neg (by norm_num : (2 * -0.04 / 0.35 ^ 2 : ℝ) < 0)]
    have : -(2 * -0.04 / 0.35 ^ 2 : ℝ) + (2 * γ + 1) ≤ 5.7 := by norm_num; linarith
    have h0 : 0 ≤ -(2 * -0.04 / 0.35 ^ 2 : ℝ) + (2 * γ + 1) := by norm_num; linarith
    calc (|log (I / 42)| + 1) * (-(2 * -0.04 / 0.35 ^ 2 : ℝ) + (2 * γ + 1)) ≤ 2 * 5.7 :=
          mul_le_mul (by linarith) this h0 (by norm_num)
      _ ≤ 12 := by norm_num
  · intro H hH
    unfold argSize
    rw [abs_of_nonneg g0, abs_of_neg (by norm_num : (-0.04 : ℝ) < 0), ← add_div, div_le_iff₀ (by linarith)]
    linarith

/-- A case: a call of 40 on a spot of 42 that is not exercised, in an arithmetic that is not exact. -/
theorem C145_example :
    RoundedP (2⁻¹ ^ 53) (biasedP (2⁻¹ ^ 53)) ∧ (biasedP (2⁻¹ ^ 53)).add 1 1 ≠ 2 ∧
    ∃ v, BSPriceFl.price (biasedP (2⁻¹ ^ 53)) 42 40 0.75 0.04 (-0.04) 0.35 = some v ∧
      |v - held 42 40 0.75 0.04 (-0.04) 0.35 (boundary 40 0.75 0.04 (-0.04) 0.35) (expo 0.04 (-0.04) 0.35)|
        ≤ 4e-7 * heldSize 42 40 0.75 0.04 (-0.04) 0.35 (boundary 40 0.75 0.04 (-0.04) 0.35) (expo 0.04 (-0.04) 0.35) := by
  obtain ⟨hT, hb, -⟩ := C100_example
  have key : ∀ x : ℝ, |x * (1 + 2⁻¹ ^ 53) - x| ≤ 2⁻¹ ^ 53 * |x| := fun x => by
    rw [show x * (1 + 2⁻¹ ^ 53) - x = 2⁻¹ ^ 53 * x by ring, abs_mul, abs_of_pos (by positivity)]
  have hA : RoundedP (2⁻¹ ^ 53) (biasedP (2⁻¹ ^ 53)) := { toRoundedT := hT, rpow := fun x y => key _ }
  refine ⟨hA, hb, ?_⟩
  have hr : rad 0.04 (-0.04) 0.35 = 12833 / 9604 := by unfold rad; norm_num
  have r1 : 1.15 ≤ √(12833 / 9604 : ℝ) := le_sqrt_of_sq_le (by norm_num)
  have r2 : √(12833 / 9604 : ℝ) ≤ 1.16 := sqrt_le_iff.2 (by norm_num)
  have hx : expo 0.04 (-0.04) 0.35 = 81 / 98 + √(12833 / 9604) := by unfold expo; rw [hr]; norm_num
  have x1 : 1.97 ≤ expo 0.04 (-0.04) 0.35 := by rw [hx]; linarith
  have x2 : expo 0.04 (-0.04) 0.35 ≤ 1.99 := by rw [hx]; linarith
  have hl : low 40 0.04 (-0.04) = 40 := by unfold low; norm_num
  have hq : high 40 0.04 (-0.04) 0.35 = expo 0.04 (-0.04) 0.35 / (expo 0.04 (-0.04) 0.35 - 1) * 40 := rfl
  have q1 : 80 ≤ high 40 0.04 (-0.04) 0.35 := by
    rw [hq, div_mul_eq_mul_div, le_div_iff₀ (by linarith)]; linarith
  have q2 : high 40 0.04 (-0.04) 0.35 ≤ 82 := by
    rw [hq, div_mul_eq_mul_div, div_le_iff₀ (by linarith)]; linarith
  have s1 : 0.86 ≤ √(0.75 : ℝ) := le_sqrt_of_sq_le (by norm_num)
  have s2 : √(0.75 : ℝ) ≤ 0.87 := sqrt_le_iff.2 (by norm_num)
  have hf : 0.5 ≤ fall 40 0.75 0.04 (-0.04) 0.35 := by
    unfold fall
    rw [hl, le_div_iff₀ (by linarith)]
    linarith
  have hE : exp (-fall 40 0.75 0.04 (-0.04) 0.35) ≤ 0.7 := by
    have h1 : exp (-fall 40 0.75 0.04 (-0.04) 0.35) ≤ exp (-0.5) := exp_le_exp.2 (by linarith)
    have h2 := add_one_le_exp (0.5 : ℝ)
    have h3 : exp (-0.5 : ℝ) * exp 0.5 = 1 := by rw [← exp_add]; norm_num
    have h4 := exp_pos (-0.5 : ℝ)
    nlinarith
  have hE0 := exp_pos (-fall 40 0.75 0.04 (-0.04) 0.35)
  have hI1 : 51 ≤ boundary 40 0.75 0.04 (-0.04) 0.35 := by unfold boundary; rw [hl]; nlinarith
  have hI2 : boundary 40 0.75 0.04 (-0.04) 0.35 ≤ 82 := by unfold boundary; rw [hl]; nlinarith
  have hG : triggerSize 40 0.75 0.04 (-0.04) 0.35 ≤ 4 * 51 := by unfold triggerSize; rw [hl]; nlinarith
  set I := boundary 40 0.75 0.04 (-0.04) 0.35 with hI
  set β := expo 0.04 (-0.04) 0.35 with hβ
  have e1 : (2.7 : ℝ) ≤ exp 1 := by linarith [exp_one_gt_d9]
  have big : ∀ n : ℕ, (2.7 : ℝ) ^ n ≤ exp n := fun n => by
    have := pow_le_pow_left₀ (by norm_num) e1 n
    rwa [← exp_nat_mul, mul_one] at this
  have lS : |log 42| ≤ 4 := by
    rw [abs_of_nonneg (log_nonneg (by norm_num)), log_le_iff_le_exp (by norm_num)]
    have := big 4
    norm_num at this ⊢
    linarith
  have lI : |log I| ≤ 5 := by
    rw [abs_of_nonneg (log_nonneg (by linarith)), log_le_iff_le_exp (by linarith)]
    have := big 5
    norm_num at this ⊢
    linarith
  have lR : ∀ x : ℝ, 1 / 2 ≤ x → x ≤ 2 → |log x| ≤ 1 := fun x h1 h2 => by
    have h3 := log_le_sub_one_of_pos (by linarith : 0 < x)
    have h4 := one_sub_inv_le_log_of_pos (by linarith : 0 < x)
    have h5 : x⁻¹ ≤ 2 := by rw [inv_le_comm₀ (by linarith) (by norm_num)]; linarith
    rw [abs_le]; constructor <;> linarith
  have lIS : |log (I / 42)| ≤ 1 := lR _ (by rw [le_div_iff₀ (by norm_num)]; linarith) (by
    rw [div_le_iff₀ (by norm_num)]; linarith)
  have lSH : ∀ H, H = I ∨ H = 40 → |log (42 / H)| ≤ 1 := by
    rintro H (rfl | rfl)
    · exact lR _ (by rw [le_div_iff₀ (by linarith)]; linarith) (by rw [div_le_iff₀ (by linarith)]; linarith)
    · exact lR _ (by norm_num) (by norm_num)
  refine C145_double hA (by positivity) le_rfl (by norm_num) (by norm_num) (by norm_num) (by norm_num) (by norm_num)
    (by rw [← hI]; linarith)
    (by unfold condRad; rw [hr, abs_of_neg (by norm_num), abs_of_pos (by norm_num)]; norm_num)
    (by
      unfold condExpo
      rw [hr, ← hβ, abs_of_neg (by norm_num), div_le_iff₀ (by linarith)]
      linarith)
    (by unfold condGap; rw [hl, div_le_iff₀ (by linarith)]; linarith)
    (by
      unfold fallSize
      rw [hl, abs_of_neg (by norm_num), div_le_iff₀ (by linarith)]
      linarith)
    (by rw [← hI]; linarith)
    (by
      rw [← hI, ← hβ, abs_of_pos (by linarith : 0 < β)]
      nlinarith [abs_nonneg (log I)])
    ?_ (by rw [← hI]; linarith)
  rw [← hI, ← hβ]
  intro γ hγ
  have g0 : 0 ≤ γ := by rcases hγ with rfl | rfl | rfl <;> linarith
  have g1 : γ ≤ 1.99 := by rcases hγ with rfl | rfl | rfl <;> linarith
  obtain ⟨u1, u2, u3, u4⟩ := bsp_demo g0 g1 lIS lS (by linarith)
  exact ⟨u1, u2, u3, fun H hH => u4 H (lSH H hH)⟩

end Verif.Props
