import Verif.Props.BAWBounds

/-!
# C120: the shape of Barone-Adesi–Whaley prices in the spot

The critical price does not depend on the spot. Before it the price is a European price plus a power of the spot, from
it on the exercise value; the two pieces have nearly the same value and slope at the critical price. So the price is
monotone, changes by at most the change of the spot, and is convex, up to the tolerance of the search and of the normal
distribution.
-/
namespace Verif.Props
open Real MeasureTheory ProbabilityTheory Filter Verif.Spec Set QuadApprox

/-- `g` on the continuation side of `Sk`, its tangent at `Sk` on the exercise side. -/
noncomputable def glue (ε Sk : ℝ) (g g' : ℝ → ℝ) (s : ℝ) : ℝ :=
  open Classical in if ε * s < ε * Sk then g s else g Sk + g' Sk * (s - Sk)

noncomputable def glueSlope (ε Sk : ℝ) (g' : ℝ → ℝ) (s : ℝ) : ℝ :=
  open Classical in if ε * s < ε * Sk then g' s else g' Sk

section glue
variable {ε Sk : ℝ} {g g' : ℝ → ℝ}

theorem tangent_slopes (ht : ∀ u, 0 < u → ∀ s, 0 < s → g u + g' u * (s - u) ≤ g s) {u v : ℝ} (hu : 0 < u) (hv : 0 < v) :
    0 ≤ (g' v - g' u) * (v - u) := by
  have h1 := ht u hu v hv
  have h2 := ht v hv u hu
  nlinarith

theorem glue_support (hε : ε = 1 ∨ ε = -1) (hSk : 0 < Sk)
    (ht : ∀ u, 0 < u → ∀ s, 0 < s → g u + g' u * (s - u) ≤ g s) {u s : ℝ} (hu : 0 < u) (hs : 0 < s) :
    glue ε Sk g g' u + glueSlope ε Sk g' u * (s - u) ≤ glue ε Sk g g' s := by
  unfold glue glueSlope
  split_ifs with h1 h2 h2
  · exact ht u hu s hs
  · have a := ht u hu Sk hSk
    have b := tangent_slopes ht hu hSk
    have c : 0 ≤ (g' Sk - g' u) * (s - Sk) := by
      rcases hε with rfl | rfl
      · exact mul_nonneg (nonneg_of_mul_nonneg_left b (by linarith)) (by linarith)
      · have : g' Sk - g' u ≤ 0 := by
          by_contra hc
          have := mul_neg_of_pos_of_neg (not_le.1 hc) (show Sk - u < 0 by linarith)
          linarith
        exact mul_nonneg_of_nonpos_of_nonpos this (by linarith)
    linarith
  · have a := ht Sk hSk s hs
    linarith
  · linarith

theorem glue_slope (hε : ε = 1 ∨ ε = -1) (hSk : 0 < Sk)
    (ht : ∀ u, 0 < u → ∀ s, 0 < s → g u + g' u * (s - u) ≤ g s) (hp : ∀ u, 0 < u → 0 ≤ ε * g' u) {u : ℝ} (hu : 0 < u) :
    0 ≤ ε * glueSlope ε Sk g' u ∧ ε * glueSlope ε Sk g' u ≤ ε * g' Sk := by
  unfold glueSlope
  split_ifs with h1
  · refine ⟨hp u hu, ?_⟩
    have b := tangent_slopes ht hu hSk
    rcases hε with rfl | rfl
    · have := nonneg_of_mul_nonneg_left b (by linarith)
      linarith
    · have : g' Sk - g' u ≤ 0 := by
        by_contra hc
        have := mul_neg_of_pos_of_neg (not_le.1 hc) (show Sk - u < 0 by linarith)
        linarith
      linarith
  · exact ⟨hp Sk hSk, le_rfl⟩

end glue

/-- The prices `P` (a relation between spot and price) are within the tolerance of a convex function whose slope has the
sign `ε` and exceeds one by no more than the error of the normal distribution. -/
def NearConvex (ε K : ℝ) (P : ℝ → ℝ → Prop) : Prop :=
  ∃ G D : ℝ → ℝ, (∀ u, 0 < u → ∀ s, 0 < s → G u + D u * (s - u) ≤ G s) ∧
    (∀ u, 0 < u → 0 ≤ ε * D u ∧ ε * D u ≤ 1 + 7.5e-8) ∧ ∀ s p, 0 < s → P s p → |p - G s| ≤ 2e-6 * K + 1e-7 * s

/-- The tolerance of the shape: four parts in a million of the strike and three in ten million of the larger spot. -/
noncomputable def shapeTol (K S : ℝ) : ℝ := 4e-6 * K + 3e-7 * S

theorem NearConvex.mono {ε K : ℝ} {P : ℝ → ℝ → Prop} (h : NearConvex ε K P) {S S' p p' : ℝ} (hS : 0 < S)
    (hSS : S ≤ S') (hp : P S p) (hp' : P S' p') (hε : ε = 1 ∨ ε = -1) :
    0 ≤ ε * (p' - p) + shapeTol K S' ∧ ε * (p' - p) ≤ S' - S + shapeTol K S' := by
  obtain ⟨G, D, hsup, hD, hn⟩ := h
  have hS' := hS.trans_le hSS
  have n1 := abs_le.1 (hn S p hS hp)
  have n2 := abs_le.1 (hn S' p' hS' hp')
  have s1 := hsup S hS S' hS'
  have s2 := hsup S' hS' S hS
  have d1 := hD S hS
  have d2 := hD S' hS'
  have e1 := mul_nonneg d1.1 (sub_nonneg.2 hSS)
  have e2 := mul_nonneg d2.1 (sub_nonneg.2 hSS)
  have e3 := mul_le_mul_of_nonneg_right d1.2 (sub_nonneg.2 hSS)
  have e4 := mul_le_mul_of_nonneg_right d2.2 (sub_nonneg.2 hSS)
  unfold shapeTol
  rcases hε with rfl | rfl
  · constructor <;> (norm_num at *; linarith)
  · constructor <;> (norm_num at *; linarith)

theorem NearConvex.convex {ε K : ℝ} {P : ℝ → ℝ → Prop} (h : NearConvex ε K P) {S S' w p p' m : ℝ} (hS : 0 < S)
    (hSS : S ≤ S') (hw : 0 ≤ w) (hw1 : w ≤ 1) (hp : P S p) (hp' : P S' p') (hm : P ((1 - w) * S + w * S') m) :
    m ≤ (1 - w) * p + w * p' + shapeTol K S' := by
  obtain ⟨G, D, hsup, hD, hn⟩ := h
  have hS' := hS.trans_le hSS
  have hM1 : (1 - w) * S + w * S' ≤ S' := by nlinarith
  have hM : 0 < (1 - w) * S + w * S' := by nlinarith
  set M := (1 - w) * S + w * S' with hMd
  have n1 := mul_le_mul_of_nonneg_left (abs_le.1 (hn S p hS hp)).1 (show 0 ≤ 1 - w by linarith)
  have n2 := mul_le_mul_of_nonneg_left (abs_le.1 (hn S' p' hS' hp')).1 hw
  have n3 := (abs_le.1 (hn M m hM hm)).2
  have s1 := mul_le_mul_of_nonneg_left (hsup M hM S hS) (show 0 ≤ 1 - w by linarith)
  have s2 := mul_le_mul_of_nonneg_left (hsup M hM S' hS') hw
  have e : (1 - w) * (D M * (S - M)) + w * (D M * (S' - M)) = 0 := by rw [hMd]; ring
  have hK : (1 - w) * (2e-6 * K + 1e-7 * S) + w * (2e-6 * K + 1e-7 * S') = 2e-6 * K + 1e-7 * M := by rw [hMd]; ring
  unfold shapeTol
  norm_num at *
  linarith

/-- European price plus power of the spot: the tangents of the sum. -/
theorem power_tangent {A q Sk u s : ℝ} (hA : 0 ≤ A) (hq : q ≤ 0 ∨ 1 ≤ q) (hSk : 0 < Sk) (hu : 0 < u) (hs : 0 < s) :
    A * (u / Sk) ^ q + A * q * (u / Sk) ^ q / u * (s - u) ≤ A * (s / Sk) ^ q := by
  have h1 : 1 + q * (s / u - 1) ≤ (s / u) ^ q := by
    rcases hq with h | h
    · exact bernoulli_neg (by positivity) h
    · have := one_add_mul_self_le_rpow_one_add (s := s / u - 1) (by have : 0 < s / u := by positivity
                                                                    linarith) h
      simpa using this
  have h2 : (s / Sk) ^ q = (u / Sk) ^ q * (s / u) ^ q := by
    rw [← mul_rpow (by positivity) (by positivity)]
    congr 1; field_simp
  have h3 : 0 ≤ A * (u / Sk) ^ q := mul_nonneg hA (rpow_nonneg (by positivity) _)
  have h4 := mul_le_mul_of_nonneg_left h1 h3
  rw [h2]
  have h5 : A * (u / Sk) ^ q * (1 + q * (s / u - 1)) = A * (u / Sk) ^ q + A * q * (u / Sk) ^ q / u * (s - u) := by
    field_simp
  linarith

theorem price_tangent (isCall : Bool) {K t r b σ u s : ℝ} (hK : 0 < K) (ht : 0 < t) (hσ : 0 < σ) (hu : 0 < u) (hs : 0 < s) :
    bsPrice isCall u K t r b σ + cpSign isCall * wt isCall K t r b σ u * (s - u) ≤ bsPrice isCall s K t r b σ := by
  have h1 := bsCall_support (r := r) (b := b) hs hK ht hσ (D1 u K t b σ)
  have h2 := bsCall_eq (r := r) (b := b) hu hK ht hσ
  cases isCall
  · have p1 := bsCall_sub_bsPut (S := u) (K := K) (r := r) (b := b) (σ := σ) ht.le
    have p2 := bsCall_sub_bsPut (S := s) (K := K) (r := r) (b := b) (σ := σ) ht.le
    have p3 := Φ_add_Φ_neg (D1 u K t b σ)
    simp only [bsPrice, cpSign, wt, Bool.false_eq_true, if_false]
    rw [neg_one_mul, neg_one_mul, show Φ (-D1 u K t b σ) = 1 - Φ (D1 u K t b σ) by linarith]
    nlinarith
  · simp only [bsPrice, cpSign, wt, if_true, one_mul]
    nlinarith

theorem baw_exercise {ε s Sk K E F n P A d : ℝ} (hs : 0 < s) (hSk : 0 < Sk) (hK : 0 < K) (hE0 : 0 < E) (hE1 : E ≤ 1)
    (hF1 : F ≤ 1) (hε : ε = 1 ∨ ε = -1) (hside : 0 ≤ ε * (s - Sk))
    (hm : |ε * (Sk - K) - (n + A)| ≤ 1e-6 * K) (hn : |n - P| ≤ 7.5e-8 * (Sk * E + K * F)) (hA : 0 ≤ A) (hP : 0 ≤ P)
    (hsl : |ε * d - 1| ≤ 7.5e-8 * E) : |ε * (s - K) - (P + A + d * (s - Sk))| ≤ 2e-6 * K + 1e-7 * s := by
  have m := abs_le.1 hm
  have nk := abs_le.1 hn
  have hεε : ε * ε = 1 := by rcases hε with rfl | rfl <;> norm_num
  have e : ε * (s - K) - (P + A + d * (s - Sk))
      = (ε * (Sk - K) - (n + A)) + (n - P) - (ε * d - 1) * (ε * (s - Sk)) := by
    linear_combination (d * (s - Sk)) * hεε
  have h3 : |(ε * d - 1) * (ε * (s - Sk))| ≤ 7.5e-8 * E * (ε * (s - Sk)) := by
    rw [abs_mul, abs_of_nonneg hside]
    exact mul_le_mul_of_nonneg_right hsl hside
  have h4 := abs_le.1 h3
  have hS1 : Sk * E ≤ Sk := by nlinarith
  have hKF1 : K * F ≤ K := by nlinarith
  have hbd : Sk * E + E * (ε * (s - Sk)) ≤ s + 2.1 * K := by
    rcases hε with h1 | h1
    · have : s * E ≤ s := by nlinarith
      rw [h1]
      linarith
    · have hSkK : Sk ≤ 1.01 * K := by
        rw [h1] at m
        norm_num at *
        linarith
      have : 0 < s * E := by positivity
      rw [h1]
      norm_num at *
      linarith
  rw [e, abs_le]
  have h5 : 7.5e-8 * E * (ε * (s - Sk)) = 7.5e-8 * (E * (ε * (s - Sk))) := by ring
  rw [h5] at h4
  generalize (ε * d - 1) * (ε * (s - Sk)) = y at *
  generalize E * (ε * (s - Sk)) = x at *
  generalize ε * (Sk - K) - (n + A) = z at *
  clear hm hn hsl h3 e h5 hside
  norm_num at *
  constructor <;> linarith

/-- One critical price for both types: if the value at `Sk` is within the tolerance of the search, the prices are near a
convex function. -/
theorem baw_near (isCall : Bool) {K t r b σ q Sk : ℝ} (hK : 0 < K) (ht : 0 < t) (hσ : 0 < σ) (hr : 0 < r) (hb : b ≤ r)
    (hq : if isCall then 1 < q else q < 0) (hSk : 0 < Sk)
    (hm : |cpSign isCall * (Sk - K) - ((if isCall then gbsCallNum Sk K t r b σ else gbsPutNum Sk K t r b σ)
      + cpSign isCall * (Sk / q) * (1 - exp ((b - r) * t) * CND (cpSign isCall * D1 Sk K t b σ)))| ≤ 1e-6 * K) :
    NearConvex (cpSign isCall) K fun s p =>
      (cpSign isCall * s < cpSign isCall * Sk → p = (if isCall then gbsCallNum s K t r b σ else gbsPutNum s K t r b σ)
        + cpSign isCall * (Sk / q) * (1 - exp ((b - r) * t) * CND (cpSign isCall * D1 Sk K t b σ)) * (s / Sk) ^ q) ∧
      (¬ cpSign isCall * s < cpSign isCall * Sk → p = cpSign isCall * (s - K)) := by
  set ε := cpSign isCall with hεd
  have hε : ε = 1 ∨ ε = -1 := by cases isCall <;> simp [hεd, cpSign]
  have hεε : ε * ε = 1 := cpSign_sq isCall
  have hq' : q ≤ 0 ∨ 1 ≤ q := by
    cases isCall
    · exact .inl (le_of_lt (by simpa using hq))
    · exact .inr (le_of_lt (by simpa using hq))
  have hq0 : q ≠ 0 := by
    cases isCall
    · exact ne_of_lt (by simpa using hq)
    · have : 1 < q := by simpa using hq
      exact (zero_lt_one.trans this).ne'
  have hεq : 0 < ε / q := by
    cases isCall
    · have : q < 0 := by simpa using hq
      simp only [hεd, cpSign, Bool.false_eq_true, if_false]
      exact div_pos_of_neg_of_neg (by norm_num) this
    · have : 1 < q := by simpa using hq
      simp only [hεd, cpSign, if_true]
      exact one_div_pos.2 (by linarith)
  set num : ℝ → ℝ := fun s => if isCall then gbsCallNum s K t r b σ else gbsPutNum s K t r b σ with hnum
  set c := CND (ε * D1 Sk K t b σ) with hc
  set E := exp ((b - r) * t) with hE
  set F := exp (-r * t) with hF
  have hE0 : 0 < E := exp_pos _
  have hF0 : 0 < F := exp_pos _
  have hE1 : E ≤ 1 := exp_le_one_iff.2 (by nlinarith)
  have hF1 : F ≤ 1 := exp_le_one_iff.2 (by nlinarith)
  have hcm := CNDError.CND_mem (ε * D1 Sk K t b σ)
  rw [← hc] at hcm
  set A := ε * (Sk / q) * (1 - E * c) with hAd
  have hA : 0 ≤ A := by
    have : ε * (Sk / q) = Sk * (ε / q) := by ring
    rw [hAd, this]
    exact mul_nonneg (by positivity) (by nlinarith [hcm.1, hcm.2])
  set g : ℝ → ℝ := fun s => bsPrice isCall s K t r b σ + A * (s / Sk) ^ q with hg
  set g' : ℝ → ℝ := fun s => ε * wt isCall K t r b σ s + A * q * (s / Sk) ^ q / s with hg'
  have htan : ∀ u, 0 < u → ∀ s, 0 < s → g u + g' u * (s - u) ≤ g s := fun u hu s hs => by
    have h1 := price_tangent isCall (r := r) (b := b) hK ht hσ hu hs
    have h2 := power_tangent hA hq' hSk hu hs
    rw [← hεd] at h1
    simp only [hg, hg']
    linarith
  have hpos : ∀ u, 0 < u → 0 ≤ ε * g' u := fun u hu => by
    have h1 : 0 ≤ wt isCall K t r b σ u := mul_nonneg (exp_pos _).le (Φ_nonneg _)
    have h2 : 0 ≤ (u / Sk) ^ q := rpow_nonneg (by positivity) _
    have h3 : 0 ≤ ε * q := by
      have : ε * q = ε / q * (q * q) := by field_simp
      rw [this]; exact mul_nonneg hεq.le (mul_self_nonneg q)
    have e : ε * g' u = (ε * ε) * wt isCall K t r b σ u + A * (ε * q) * (u / Sk) ^ q / u := by simp only [hg']; ring
    rw [e, hεε, one_mul]
    exact add_nonneg h1 (div_nonneg (mul_nonneg (mul_nonneg hA h3) h2) hu.le)
  have hslope : g' Sk = ε * (1 + E * (Φ (ε * D1 Sk K t b σ) - c)) := by
    simp only [hg', wt, div_self hSk.ne', one_rpow, mul_one]
    rw [hAd, ← hεd, ← hE]
    field_simp
    ring
  have hce := abs_le.1 (CNDError.CND_error (ε * D1 Sk K t b σ))
  rw [← hc] at hce
  have hsl1 : |ε * g' Sk - 1| ≤ 7.5e-8 * E := by
    have e : ε * g' Sk - 1 = E * (Φ (ε * D1 Sk K t b σ) - c) := by
      rw [hslope, ← mul_assoc, hεε]; ring
    rw [e, abs_mul, abs_of_pos hE0, mul_comm]
    refine mul_le_mul_of_nonneg_right ?_ hE0.le
    rw [abs_sub_comm]
    exact CNDError.CND_error _
  refine ⟨glue ε Sk g g', glueSlope ε Sk g', fun u hu s hs => glue_support hε hSk htan hu hs, fun u hu => ?_, ?_⟩
  · obtain ⟨h1, h2⟩ := glue_slope hε hSk htan hpos hu
    refine ⟨h1, h2.trans ?_⟩
    have := (abs_le.1 hsl1).2
    norm_num at *
    nlinarith
  · rintro s p hs ⟨hp1, hp2⟩
    have hSE : s * E ≤ s := by nlinarith
    have hKF1 : K * F ≤ K := by nlinarith
    unfold glue
    split_ifs with hside
    · have ns := num_near isCall r b hs hK ht hσ
      rw [← hE, ← hF] at ns
      have e : p - g s = num s - bsPrice isCall s K t r b σ := by rw [hp1 hside]; simp only [hg, hnum]; ring
      rw [e]
      refine ns.trans ?_
      norm_num at *
      linarith
    · rw [hp2 hside]
      have hgk : g Sk = bsPrice isCall Sk K t r b σ + A := by simp only [hg, div_self hSk.ne', one_rpow, mul_one]
      rw [hgk]
      exact baw_exercise hs hSk hK hE0 hE1 hF1 hε (by linarith) hm (num_near isCall r b hSk hK ht hσ) hA
        (price_nonneg isCall K t r b σ Sk) hsl1

theorem baw_near_call {K t r b σ : ℝ} (hK : 0 < K) (ht : 0 < t) (hσ : 0 < σ) (hr : 0 < r) (hb : b < r) {S₀ Sk : ℝ}
    {x₀ : Except PyErr ℝ} (h₀ : BAW.Call ⟨S₀, K, t, r, b, some σ⟩ Sk x₀) (hSk : 0 < Sk) :
    NearConvex 1 K fun s p => BAW.Call ⟨s, K, t, r, b, some σ⟩ Sk (.ok p) := by
  have hq1 : 1 < BAW.Q2 t r b σ := by
    obtain ⟨A, q, e, -, hq1, hroot, -⟩ := C38_call hK ht hσ hr hb h₀ hSk
    have := baw_exponent ht hσ hr true hroot (by simp [cpSign]; linarith)
    rw [if_pos rfl] at this
    rwa [← this]
  have hcall : ∀ s x, BAW.Call ⟨s, K, t, r, b, some σ⟩ Sk x ↔ _ := fun s x => by rw [BAW.Call, if_neg (not_le.2 hb)]
  rw [hcall] at h₀
  have hx := h₀.1.exit
  rw [not_lt, div_le_iff₀ hK] at hx
  have hm := baw_near true (q := BAW.Q2 t r b σ) hK ht hσ hr hb.le (by simpa using hq1) hSk (by
    have e : cpSign true * (Sk - K) - ((if true then gbsCallNum Sk K t r b σ else gbsPutNum Sk K t r b σ)
        + cpSign true * (Sk / BAW.Q2 t r b σ) * (1 - exp ((b - r) * t) * CND (cpSign true * D1 Sk K t b σ)))
        = Sk - K - BAW.rhsCall K t r b σ Sk := by
      simp only [cpSign, if_true, one_mul, BAW.rhsCall, baw_d1]; ring
    rw [e]
    norm_num at hx ⊢
    exact hx)
  obtain ⟨G, D, h1, h2, h3⟩ := hm
  simp only [cpSign, if_true, one_mul] at h2 h3
  refine ⟨G, D, h1, by simpa using h2, fun s p hs hp => h3 s p hs ?_⟩
  replace hp := (hcall s _).1 hp
  obtain ⟨-, hp⟩ := hp
  simp only at hp
  constructor
  · intro hlt
    rw [if_pos hlt, baw_d1] at hp
    injection hp
  · intro hge
    rw [if_neg hge] at hp
    injection hp

theorem baw_near_put {K t r b σ : ℝ} (hK : 0 < K) (ht : 0 < t) (hσ : 0 < σ) (hr : 0 < r) (hb : b ≤ r) {S₀ Sk : ℝ}
    {x₀ : Except PyErr ℝ} (h₀ : BAW.Put ⟨S₀, K, t, r, b, some σ⟩ Sk x₀) (hSk : 0 < Sk) :
    NearConvex (-1) K fun s p => BAW.Put ⟨s, K, t, r, b, some σ⟩ Sk (.ok p) := by
  obtain ⟨hq0, -, -⟩ := baw_roots (b := b) ht hσ hr
  have hx := h₀.1.exit
  rw [not_lt, div_le_iff₀ hK] at hx
  have hm := baw_near false (q := BAW.Q1 t r b σ) hK ht hσ hr hb (by simpa using hq0) hSk (by
    have e : cpSign false * (Sk - K) - ((if false then gbsCallNum Sk K t r b σ else gbsPutNum Sk K t r b σ)
        + cpSign false * (Sk / BAW.Q1 t r b σ) * (1 - exp ((b - r) * t) * CND (cpSign false * D1 Sk K t b σ)))
        = K - Sk - BAW.rhsPut K t r b σ Sk := by
      simp only [cpSign, Bool.false_eq_true, if_false, neg_one_mul, BAW.rhsPut, baw_d1]; ring
    rw [e]
    norm_num at hx ⊢
    exact hx)
  obtain ⟨G, D, h1, h2, h3⟩ := hm
  simp only [cpSign, Bool.false_eq_true, if_false, neg_one_mul, neg_lt_neg_iff] at h2 h3
  refine ⟨G, D, h1, by simpa using h2, fun s p hs hp => h3 s p hs ?_⟩
  obtain ⟨-, hp⟩ := hp
  simp only at hp
  constructor
  · intro hlt
    rw [if_pos hlt, baw_d1] at hp
    injection hp
  · intro hge
    rw [if_neg hge] at hp
    injection hp with hp
    rw [hp]; ring

theorem put_critical_unique {K t r b σ S S' Sk Sk' : ℝ} {x x' : Except PyErr ℝ}
    (h : BAW.Put ⟨S, K, t, r, b, some σ⟩ Sk x) (h' : BAW.Put ⟨S', K, t, r, b, some σ⟩ Sk' x') : Sk = Sk' :=
  Py.Loop.det h.1 h'.1

/-- **C120, call.** A larger spot gives a larger price, by at most the difference of the spots. -/
theorem C120_call {K t r b σ S S' Sk Sk' p p' : ℝ} (hK : 0 < K) (ht : 0 < t) (hσ : 0 < σ) (hr : 0 < r) (hb : b < r)
    (hS : 0 < S) (hSS : S ≤ S') (h : BAW.Call ⟨S, K, t, r, b, some σ⟩ Sk (.ok p))
    (h' : BAW.Call ⟨S', K, t, r, b, some σ⟩ Sk' (.ok p')) (hSk : 0 < Sk) :
    p ≤ p' + shapeTol K S' ∧ p' ≤ p + (S' - S) + shapeTol K S' := by
  obtain ⟨rfl, -⟩ := C38_critical_unique hb h h'
  have := (baw_near_call hK ht hσ hr hb h hSk).mono hS hSS h h' (.inl rfl)
  exact ⟨by linarith [this.1], by linarith [this.2]⟩

/-- **C120, put.** A larger spot gives a smaller price, by at most the difference of the spots. -/
theorem C120_put {K t r b σ S S' Sk Sk' p p' : ℝ} (hK : 0 < K) (ht : 0 < t) (hσ : 0 < σ) (hr : 0 < r) (hb : b ≤ r)
    (hS : 0 < S) (hSS : S ≤ S') (h : BAW.Put ⟨S, K, t, r, b, some σ⟩ Sk (.ok p))
    (h' : BAW.Put ⟨S', K, t, r, b, some σ⟩ Sk' (.ok p')) (hSk : 0 < Sk) :
    p' ≤ p + shapeTol K S' ∧ p ≤ p' + (S' - S) + shapeTol K S' := by
  obtain rfl := put_critical_unique h h'
  have := (baw_near_put hK ht hσ hr hb h hSk).mono hS hSS h h' (.inr rfl)
  exact ⟨by linarith [this.1], by linarith [this.2]⟩

/-- **C120, convexity of the call.** At a mixture of two spots the price is at most the mixture of the prices. -/
theorem C120_call_convex {K t r b σ S S' w Sk Sk' Sk'' p p' m : ℝ} (hK : 0 < K) (ht : 0 < t) (hσ : 0 < σ) (hr : 0 < r)
    (hb : b < r) (hS : 0 < S) (hSS : S ≤ S') (hw : 0 ≤ w) (hw1 : w ≤ 1)
    (h : BAW.Call ⟨S, K, t, r, b, some σ⟩ Sk (.ok p)) (h' : BAW.Call ⟨S', K, t, r, b, some σ⟩ Sk' (.ok p'))
    (h'' : BAW.Call ⟨(1 - w) * S + w * S', K, t, r, b, some σ⟩ Sk'' (.ok m)) (hSk : 0 < Sk) :
    m ≤ (1 - w) * p + w * p' + shapeTol K S' := by
  obtain ⟨rfl, -⟩ := C38_critical_unique hb h h'
  obtain ⟨rfl, -⟩ := C38_critical_unique hb h h''
  exact (baw_near_call hK ht hσ hr hb h hSk).convex hS hSS hw hw1 h h' h''

/-- **C120, convexity of the put.** -/
theorem C120_put_convex {K t r b σ S S' w Sk Sk' Sk'' p p' m : ℝ} (hK : 0 < K) (ht : 0 < t) (hσ : 0 < σ) (hr : 0 < r)
    (hb : b ≤ r) (hS : 0 < S) (hSS : S ≤ S') (hw : 0 ≤ w) (hw1 : w ≤ 1)
    (h : BAW.Put ⟨S, K, t, r, b, some σ⟩ Sk (.ok p)) (h' : BAW.Put ⟨S', K, t, r, b, some σ⟩ Sk' (.ok p'))
    (h'' : BAW.Put ⟨(1 - w) * S + w * S', K, t, r, b, some σ⟩ Sk'' (.ok m)) (hSk : 0 < Sk) :
    m ≤ (1 - w) * p + w * p' + shapeTol K S' := by
  obtain rfl := put_critical_unique h h'
  obtain rfl := put_critical_unique h h''
  exact (baw_near_put hK ht hσ hr hb h hSk).convex hS hSS hw hw1 h h' h''

/-- The hypotheses hold at the option of C38's example: spots one, two and three. -/
theorem C120_example :
    (∃ Sk p p' m, 0 < Sk ∧ BAW.Call ⟨1, 1, 400, 1, 0, some 1⟩ Sk (.ok p) ∧ BAW.Call ⟨3, 1, 400, 1, 0, some 1⟩ Sk (.ok p') ∧
      BAW.Call ⟨2, 1, 400, 1, 0, some 1⟩ Sk (.ok m) ∧ p ≤ p' + shapeTol 1 3 ∧ p' ≤ p + 2 + shapeTol 1 3 ∧
      m ≤ (p + p') / 2 + shapeTol 1 3) ∧
    (∃ Sk p p' m, 0 < Sk ∧ BAW.Put ⟨1, 1, 400, 1, 0, some 1⟩ Sk (.ok p) ∧ BAW.Put ⟨3, 1, 400, 1, 0, some 1⟩ Sk (.ok p') ∧
      BAW.Put ⟨2, 1, 400, 1, 0, some 1⟩ Sk (.ok m) ∧ p' ≤ p + shapeTol 1 3 ∧ p ≤ p' + 2 + shapeTol 1 3 ∧
      m ≤ (p + p') / 2 + shapeTol 1 3) := by
  constructor
  · obtain ⟨Sk, x, hSk, h⟩ := C38_call_example
    have hex : ∀ s, ∃ p, BAW.Call ⟨s, 1, 400, 1, 0, some 1⟩ Sk (.ok p) := fun s => by
      rw [BAW.Call, if_neg (by norm_num)] at h
      have hN := h.1
      by_cases hs : s < Sk
      · exact ⟨_, by rw [BAW.Call, if_neg (by norm_num)]; exact ⟨hN, by simp only; rw [if_pos hs]⟩⟩
      · exact ⟨_, by rw [BAW.Call, if_neg (by norm_num)]; exact ⟨hN, by simp only; rw [if_neg hs]⟩⟩
    obtain ⟨p, hp⟩ := hex 1
    obtain ⟨p', hp'⟩ := hex 3
    obtain ⟨m, hm⟩ := hex 2
    have h1 := C120_call one_pos (by norm_num) one_pos one_pos one_pos one_pos (by norm_num) hp hp' hSk
    have h2 := C120_call_convex (w := 1 / 2) one_pos (by norm_num) one_pos one_pos one_pos one_pos (by norm_num)
      (by norm_num) (by norm_num) hp hp' (by norm_num; exact hm) hSk
    exact ⟨Sk, p, p', m, hSk, hp, hp', hm, h1.1, by linarith [h1.2], by linarith⟩
  · obtain ⟨Sk, x, hSk, h⟩ := C38_put_example
    have hex : ∀ s, ∃ p, BAW.Put ⟨s, 1, 400, 1, 0, some 1⟩ Sk (.ok p) := fun s => by
      have hN := h.1
      by_cases hs : s > Sk
      · exact ⟨_, hN, by simp only; rw [if_pos hs]⟩
      · exact ⟨_, hN, by simp only; rw [if_neg hs]⟩
    obtain ⟨p, hp⟩ := hex 1
    obtain ⟨p', hp'⟩ := hex 3
    obtain ⟨m, hm⟩ := hex 2
    have h1 := C120_put one_pos (by norm_num) one_pos one_pos zero_le_one one_pos (by norm_num) hp hp' hSk
    have h2 := C120_put_convex (w := 1 / 2) one_pos (by norm_num) one_pos one_pos zero_le_one one_pos (by norm_num)
      (by norm_num) (by norm_num) hp hp' (by norm_num; exact hm) hSk
    exact ⟨Sk, p, p', m, hSk, hp, hp', hm, h1.1, by linarith [h1.2], by linarith⟩

end Verif.Props
