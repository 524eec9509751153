import Verif.Props.BAWShape
import Verif.Props.BS93European

/-!
# C123: Barone-Adesi–Whaley prices under a change of unit, and as functions of the strike

The code stops its search by a relative criterion, so a change of the monetary unit changes every iterate of the search
by the same factor. The price is then homogeneous in spot and strike, exactly. With the shape in the spot (C120) and
the bounds of C115 this gives the shape in the strike.
-/
namespace Verif.Props
open Real Verif.Spec

/-- A loop whose state is transported by `g`. -/
theorem Loop_map {α β : Type} {c : α → Prop} {f : α → α} {c' : β → Prop} {f' : β → β} (g : α → β) (hc : ∀ s, c' (g s) ↔ c s)
    (hf : ∀ s, f' (g s) = g (f s)) {s s' : α} (h : Py.Loop c f s s') : Py.Loop c' f' (g s) (g s') := by
  induction h with
  | stop h => exact .stop fun hh => h ((hc _).1 hh)
  | step h _ ih => exact .step ((hc _).2 h) (by rw [hf]; exact ih)

section scale
variable {l : ℝ} (hl : 0 < l) (K t r b σ : ℝ)
include hl

theorem callNum_scale (S : ℝ) : gbsCallNum (l * S) (l * K) t r b σ = l * gbsCallNum S K t r b σ := by
  simp only [gbsCallNum, GBS.d1Expr, mul_div_mul_left _ _ hl.ne']; ring

theorem putNum_scale (S : ℝ) : gbsPutNum (l * S) (l * K) t r b σ = l * gbsPutNum S K t r b σ := by
  simp only [gbsPutNum, GBS.d1Expr, mul_div_mul_left _ _ hl.ne']; ring

theorem baw_d1_scale (s : ℝ) : BAW.d1 (l * K) t b σ (l * s) = BAW.d1 K t b σ s := by
  simp only [BAW.d1, mul_div_mul_left _ _ hl.ne']

theorem rhsCall_scale (s : ℝ) : BAW.rhsCall (l * K) t r b σ (l * s) = l * BAW.rhsCall K t r b σ s := by
  simp only [BAW.rhsCall, callNum_scale hl, baw_d1_scale hl]; ring

theorem rhsPut_scale (s : ℝ) : BAW.rhsPut (l * K) t r b σ (l * s) = l * BAW.rhsPut K t r b σ s := by
  simp only [BAW.rhsPut, putNum_scale hl, baw_d1_scale hl]; ring

theorem biCall_scale (s : ℝ) : BAW.biCall (l * K) t r b σ (l * s) = BAW.biCall K t r b σ s := by
  simp only [BAW.biCall, baw_d1_scale hl]

theorem biPut_scale (s : ℝ) : BAW.biPut (l * K) t r b σ (l * s) = BAW.biPut K t r b σ s := by
  simp only [BAW.biPut, baw_d1_scale hl]

theorem seedCall_scale : BAW.seedCall (l * K) t r b σ = l * BAW.seedCall K t r b σ := by
  simp only [BAW.seedCall]
  set y := 1 - 1 / ((-(BAW.n b σ - 1) + √((BAW.n b σ - 1) ^ 2 + 4 * BAW.m r σ)) / 2)
  have e : l * K / y - l * K = l * (K / y - K) := by ring
  rw [e, show -(b * t + 2 * σ * √t) * (l * K) = l * (-(b * t + 2 * σ * √t) * K) by ring, mul_div_mul_left _ _ hl.ne']
  ring

theorem seedPut_scale : BAW.seedPut (l * K) t r b σ = l * BAW.seedPut K t r b σ := by
  simp only [BAW.seedPut]
  set y := 1 - 1 / ((-(BAW.n b σ - 1) - √((BAW.n b σ - 1) ^ 2 + 4 * BAW.m r σ)) / 2)
  have e : l * K - l * K / y = l * (K - K / y) := by ring
  rw [e, show (b * t - 2 * σ * √t) * (l * K) = l * ((b * t - 2 * σ * √t) * K) by ring, mul_div_mul_left _ _ hl.ne']
  ring

theorem newtonCall_scale {s s' : ℝ} (h : BAW.NewtonCall K t r b σ s s') :
    BAW.NewtonCall (l * K) t r b σ (l * s) (l * s') := by
  refine Loop_map (l * ·) (fun s => ?_) (fun s => ?_) h
  · simp only [rhsCall_scale hl]
    rw [← mul_sub, ← mul_sub, abs_mul, abs_of_pos hl, mul_div_mul_left _ _ hl.ne']
  · simp only [rhsCall_scale hl, biCall_scale hl]
    rw [← mul_div_assoc]; congr 1; ring

theorem newtonPut_scale {s s' : ℝ} (h : BAW.NewtonPut K t r b σ s s') :
    BAW.NewtonPut (l * K) t r b σ (l * s) (l * s') := by
  refine Loop_map (l * ·) (fun s => ?_) (fun s => ?_) h
  · simp only [rhsPut_scale hl]
    rw [← mul_sub, ← mul_sub, abs_mul, abs_of_pos hl, mul_div_mul_left _ _ hl.ne']
  · simp only [rhsPut_scale hl, biPut_scale hl]
    rw [← mul_div_assoc]; congr 1; ring

theorem call_scale_imp {S Sk : ℝ} {sg : Option ℝ} {x : Except PyErr ℝ} (h : BAW.Call ⟨S, K, t, r, b, sg⟩ Sk x) :
    BAW.Call ⟨l * S, l * K, t, r, b, sg⟩ (l * Sk) (x.map (l * ·)) := by
  unfold BAW.Call at h ⊢
  simp only at h ⊢
  by_cases hb : b ≥ r
  · rw [if_pos hb] at h ⊢
    subst h
    cases sg with
    | none => rfl
    | some σ => rw [gbsCallNum_eq, gbsCallNum_eq, callNum_scale hl]; rfl
  · rw [if_neg hb] at h ⊢
    cases sg with
    | none => subst h; rfl
    | some σ =>
      simp only [seedCall_scale hl, mul_lt_mul_iff_right₀ hl] at h ⊢
      refine ⟨newtonCall_scale hl K t r b σ h.1, ?_⟩
      have h2 := h.2
      split_ifs at h2 ⊢ with hs
      · rw [h2, mul_div_mul_left _ _ hl.ne', callNum_scale hl, baw_d1_scale hl]
        simp only [Except.map]; congr 1; ring
      · rw [h2]
        simp only [Except.map]; congr 1; ring

theorem put_scale_imp {S Sk : ℝ} {sg : Option ℝ} {x : Except PyErr ℝ} (h : BAW.Put ⟨S, K, t, r, b, sg⟩ Sk x) :
    BAW.Put ⟨l * S, l * K, t, r, b, sg⟩ (l * Sk) (x.map (l * ·)) := by
  unfold BAW.Put at h ⊢
  cases sg with
  | none => simp only at h ⊢; subst h; rfl
  | some σ =>
    simp only [seedPut_scale hl, gt_iff_lt, mul_lt_mul_iff_right₀ hl] at h ⊢
    refine ⟨newtonPut_scale hl K t r b σ h.1, ?_⟩
    have h2 := h.2
    split_ifs at h2 ⊢ with hs
    · rw [h2, mul_div_mul_left _ _ hl.ne', putNum_scale hl, baw_d1_scale hl]
      simp only [Except.map]; congr 1; ring
    · rw [h2]
      simp only [Except.map]; congr 1; ring

end scale

theorem map_back {l : ℝ} (hl : 0 < l) (x : Except PyErr ℝ) : (x.map (l * ·)).map (l⁻¹ * ·) = x := by
  cases x with
  | error e => rfl
  | ok p => simp only [Except.map]; rw [inv_mul_cancel_left₀ hl.ne']

/-- **C123, change of unit.** `call()` with spot and strike multiplied by `l` finds `l` times the critical price and
returns `l` times the price; it stops exactly when the original call stops, and raises what that raises. -/
theorem C123_call_homogeneous {S K t r b l : ℝ} {sg : Option ℝ} (hl : 0 < l) (Sk : ℝ) (x : Except PyErr ℝ) :
    BAW.Call ⟨l * S, l * K, t, r, b, sg⟩ (l * Sk) (x.map (l * ·)) ↔ BAW.Call ⟨S, K, t, r, b, sg⟩ Sk x := by
  refine ⟨fun h => ?_, call_scale_imp hl K t r b⟩
  have := call_scale_imp (inv_pos.2 hl) _ t r b h
  rwa [map_back hl, inv_mul_cancel_left₀ hl.ne', inv_mul_cancel_left₀ hl.ne', inv_mul_cancel_left₀ hl.ne'] at this

/-- **C123, change of unit**, `put()`. -/
theorem C123_put_homogeneous {S K t r b l : ℝ} {sg : Option ℝ} (hl : 0 < l) (Sk : ℝ) (x : Except PyErr ℝ) :
    BAW.Put ⟨l * S, l * K, t, r, b, sg⟩ (l * Sk) (x.map (l * ·)) ↔ BAW.Put ⟨S, K, t, r, b, sg⟩ Sk x := by
  refine ⟨fun h => ?_, put_scale_imp hl K t r b⟩
  have := put_scale_imp (inv_pos.2 hl) _ t r b h
  rwa [map_back hl, inv_mul_cancel_left₀ hl.ne', inv_mul_cancel_left₀ hl.ne', inv_mul_cancel_left₀ hl.ne'] at this

/-- The critical price is a multiple of the strike that depends only on rate, carry, volatility and expiry. -/
theorem C123_critical_call {K K' S S' t r b σ Sk Sk' : ℝ} {x x' : Except PyErr ℝ} (hK : 0 < K) (hK' : 0 < K') (hb : b < r)
    (h : BAW.Call ⟨S, K, t, r, b, some σ⟩ Sk x) (h' : BAW.Call ⟨S', K', t, r, b, some σ⟩ Sk' x') : Sk / K = Sk' / K' := by
  have h1 := call_scale_imp (div_pos hK' hK) _ t r b h
  rw [div_mul_cancel₀ _ hK.ne'] at h1
  obtain ⟨e, -⟩ := C38_critical_unique hb h1 h'
  rw [← e]; field_simp

theorem C123_critical_put {K K' S S' t r b σ Sk Sk' : ℝ} {x x' : Except PyErr ℝ} (hK : 0 < K) (hK' : 0 < K')
    (h : BAW.Put ⟨S, K, t, r, b, some σ⟩ Sk x) (h' : BAW.Put ⟨S', K', t, r, b, some σ⟩ Sk' x') : Sk / K = Sk' / K' := by
  have h1 := put_scale_imp (div_pos hK' hK) _ t r b h
  rw [div_mul_cancel₀ _ hK.ne'] at h1
  have e := put_critical_unique h1 h'
  rw [← e]; field_simp

/-! ### Strike -/

/-- The tolerance in the strike. -/
noncomputable def strikeTol (K S : ℝ) : ℝ := 1e-5 * K + 1e-6 * S

theorem call_price_exists {S₀ K t r b σ Sk : ℝ} {x : Except PyErr ℝ} (hb : b < r) (h : BAW.Call ⟨S₀, K, t, r, b, some σ⟩ Sk x) (s : ℝ) :
    ∃ p, BAW.Call ⟨s, K, t, r, b, some σ⟩ Sk (.ok p) := by
  rw [BAW.Call, if_neg (not_le.2 hb)] at h
  have hN := h.1
  by_cases hs : s < Sk
  · exact ⟨_, by rw [BAW.Call, if_neg (not_le.2 hb)]; exact ⟨hN, by simp only; rw [if_pos hs]⟩⟩
  · exact ⟨_, by rw [BAW.Call, if_neg (not_le.2 hb)]; exact ⟨hN, by simp only; rw [if_neg hs]⟩⟩

theorem put_price_exists {S₀ K t r b σ Sk : ℝ} {x : Except PyErr ℝ} (h : BAW.Put ⟨S₀, K, t, r, b, some σ⟩ Sk x) (s : ℝ) :
    ∃ p, BAW.Put ⟨s, K, t, r, b, some σ⟩ Sk (.ok p) := by
  have hN := h.1
  by_cases hs : s > Sk
  · exact ⟨_, hN, by simp only; rw [if_pos hs]⟩
  · exact ⟨_, hN, by simp only; rw [if_neg hs]⟩

theorem bawTol_le {S K t r b : ℝ} (hS : 0 < S) (hK : 0 < K) (ht : 0 < t) (hr : 0 < r) (hb : b ≤ r) :
    bawTol S K t r b ≤ 1.15e-6 * K + 1.5e-7 * S := by
  have h1 : exp ((b - r) * t) ≤ 1 := exp_le_one_iff.2 (mul_nonpos_of_nonpos_of_nonneg (by linarith) ht.le)
  have h2 : exp (-r * t) ≤ 1 := exp_le_one_iff.2 (by nlinarith)
  have h3 := mul_le_mul_of_nonneg_left h1 hS.le
  have h4 := mul_le_mul_of_nonneg_left h2 hK.le
  unfold bawTol
  norm_num at *
  linarith

theorem near_scale_aux1 {K S l p q s₀ p₀ C G1 G2 G0 D w lK lS : ℝ} (n1 : p - G1 ≤ 2e-6 * K + 1e-7 * S)
    (m2 : -(2e-6 * lK + 1e-7 * S) ≤ q - G2) (m3 : -(2e-6 * ((1 - l) * K) + 1e-7 * ((1 - l) * s₀)) ≤ p₀ - G0)
    (mC : p₀ ≤ C) (t1 : (1 - l) * G1 + (w - D * (S - lS)) ≤ G0) (t2 : l * G1 + D * (S - lS) ≤ G2)
    (z : -(1.1e-7 * K) ≤ w) (k1 : lK ≤ K) (k2 : (1 - l) * s₀ ≤ 1e-7 * K) (k3 : (1 - l) * K ≤ K) (hK : 0 < K) :
    p ≤ C + q + (7e-6 * K + 2e-7 * S) := by
  generalize (1 - l) * s₀ = a at *
  generalize (1 - l) * K = c at *
  norm_num at *
  linarith

/-- Comparison of a nearly convex function at `S` and at `S / l`, with a bound near zero. -/
theorem near_scale {ε K C S l p q s₀ p₀ : ℝ} {P : ℝ → ℝ → Prop} (h : NearConvex ε K P) (hε : ε = 1 ∨ ε = -1) (hK : 0 < K)
    (hS : 0 < S) (hl : 0 < l) (hl1 : l ≤ 1) (hp : P S p) (hq : P (S / l) q) (hs₀ : s₀ = 1e-7 * K) (hp₀ : P s₀ p₀) (hC : p₀ ≤ C) :
    p ≤ (1 - l) * C + l * q + (7e-6 * K + 2e-7 * S) ∧
      (ε = 1 → l * q ≤ p + (1 - l) * (S - p) + (5e-6 * K + 5e-7 * S)) ∧
      (ε = -1 → l * q ≤ l * p + (5e-6 * K + 5e-7 * S)) := by
  obtain ⟨G, D, hsup, hD, hn⟩ := h
  have hSl : 0 < S / l := by positivity
  have h0 : 0 < s₀ := by rw [hs₀]; positivity
  have n1 := abs_le.1 (hn S p hS hp)
  have n2 := abs_le.1 (hn _ q hSl hq)
  have n3 := abs_le.1 (hn _ p₀ h0 hp₀)
  have s1 := hsup S hS s₀ h0
  have s2 := hsup S hS _ hSl
  have s3 := hsup _ hSl S hS
  have d1 := hD S hS
  have d2 := hD _ hSl
  have e : l * (S / l) = S := by field_simp
  have l1 : 0 ≤ 1 - l := by linarith
  have t1 := mul_le_mul_of_nonneg_left s1 l1
  have t2 := mul_le_mul_of_nonneg_left s2 hl.le
  have t3 := mul_le_mul_of_nonneg_left s3 hl.le
  have m2 := mul_le_mul_of_nonneg_left n2.1 hl.le
  have m2' := mul_le_mul_of_nonneg_left n2.2 hl.le
  have q1 : l * (D S * (S / l - S)) = D S * (S - l * S) := by
    rw [show l * (D S * (S / l - S)) = D S * (l * (S / l) - l * S) by ring, e]
  have q2 : l * (D (S / l) * (S - S / l)) = D (S / l) * (l * S - S) := by
    rw [show l * (D (S / l) * (S - S / l)) = D (S / l) * (l * S - l * (S / l)) by ring, e]
  have q3 : l * (2e-6 * K + 1e-7 * (S / l)) = 2e-6 * (l * K) + 1e-7 * S := by
    rw [mul_add, show l * (1e-7 * (S / l)) = 1e-7 * (l * (S / l)) by ring, e]; ring
  have k1 : l * K ≤ K := by nlinarith
  have k2 : (1 - l) * s₀ ≤ 1e-7 * K := by rw [hs₀]; nlinarith
  have k3 : 0 ≤ (1 - l) * s₀ := mul_nonneg l1 h0.le
  have kS : l * S ≤ S := by nlinarith
  have l0 : 0 ≤ l * K := by positivity
  have lS : 0 ≤ l * S := by positivity
  rw [mul_add, q1] at t2
  rw [mul_add, q2] at t3
  rw [q3, mul_sub] at m2'
  rw [mul_neg, q3, mul_sub] at m2
  refine ⟨?_, ?_, ?_⟩
  · have z : -(1.1e-7 * K) ≤ (1 - l) * (D S * s₀) := by
      rw [show (1 - l) * (D S * s₀) = D S * ((1 - l) * s₀) by ring]
      clear t1 t2 t3 m2 m2' q1 q2 q3 s1 s2 s3 n1 n2 n3
      rcases hε with rfl | rfl
      · have := mul_nonneg d1.1 k3
        have : 0 ≤ 1.1e-7 * K := by positivity
        linarith
      · have h1 := mul_le_mul_of_nonneg_right d1.2 k3
        have h2 : (1 + 7.5e-8) * ((1 - l) * s₀) ≤ (1 + 7.5e-8) * (1e-7 * K) := mul_le_mul_of_nonneg_left k2 (by norm_num)
        norm_num at h1 h2 ⊢
        linarith
    have q4 : (1 - l) * (D S * (s₀ - S)) = (1 - l) * (D S * s₀) - D S * (S - l * S) := by ring
    rw [mul_add, q4] at t1
    have m3 := mul_le_mul_of_nonneg_left n3.1 l1
    rw [show (1 - l) * -(2e-6 * K + 1e-7 * s₀) = -(2e-6 * ((1 - l) * K) + 1e-7 * ((1 - l) * s₀)) by ring, mul_sub] at m3
    exact near_scale_aux1 n1.2 m2 m3 (mul_le_mul_of_nonneg_left hC l1) t1 t2 z k1 k2 (by nlinarith) hK
  · rintro rfl
    have z := mul_le_mul_of_nonneg_right d2.2 (show 0 ≤ S - l * S by linarith)
    have m1 := mul_le_mul_of_nonneg_left n1.1 hl.le
    have g : D (S / l) * (l * S - S) = -(D (S / l) * (S - l * S)) := by ring
    rw [g] at t3
    rw [one_mul] at z
    have n11 := n1.1
    have n12 := n1.2
    clear n1 n2 n3 t1 t2 m2 q1 q2 q3 s1 s2 s3 hsup hD hn d1 d2 g
    rw [show l * -(2e-6 * K + 1e-7 * S) = -(2e-6 * (l * K) + 1e-7 * (l * S)) by ring, mul_sub] at m1
    rw [show p + (1 - l) * (S - p) = (S - l * S) + l * p by ring]
    generalize D (S / l) * (S - l * S) = A at *
    generalize G (S / l) = B at *
    generalize l * K = E at *
    generalize l * S = F at *
    norm_num at *
    linarith
  · rintro rfl
    have z := mul_nonneg d2.1 (show 0 ≤ S - l * S by linarith)
    have m1' := mul_le_mul_of_nonneg_left n1.1 hl.le
    have g : D (S / l) * (l * S - S) = -1 * D (S / l) * (S - l * S) := by ring
    rw [g] at t3
    clear n1 n2 n3 t1 t2 m2 q1 q2 q3 s1 s2 s3 hsup hD hn d1 d2 g
    rw [show l * -(2e-6 * K + 1e-7 * S) = -(2e-6 * (l * K) + 1e-7 * (l * S)) by ring, mul_sub] at m1'
    generalize -1 * D (S / l) * (S - l * S) = A at *
    generalize l * K = E at *
    generalize l * S = F at *
    norm_num at *
    linarith

/-- **C123, strike.** A call with a larger strike is cheaper, by at most the difference of the strikes. -/
theorem C123_call {S K K' t r b σ Sk Sk' p p' : ℝ} (hS : 0 < S) (hK : 0 < K) (hKK : K ≤ K') (ht : 0 < t) (hσ : 0 < σ)
    (hr : 0 < r) (hb : b < r) (h : BAW.Call ⟨S, K, t, r, b, some σ⟩ Sk (.ok p))
    (h' : BAW.Call ⟨S, K', t, r, b, some σ⟩ Sk' (.ok p')) (hSk : 0 < Sk) :
    p' ≤ p + strikeTol K' S ∧ p ≤ p' + (K' - K) + strikeTol K' S := by
  have hK' := hK.trans_le hKK
  have hSk' : 0 < Sk' := by
    have := C123_critical_call hK hK' hb h h'
    have h2 : 0 < Sk' / K' := this ▸ div_pos hSk hK
    exact (div_pos_iff_of_pos_right hK').1 h2
  set l := K / K' with hld
  have hl : 0 < l := div_pos hK hK'
  have hl1 : l ≤ 1 := (div_le_one hK').2 hKK
  have hlK : l * K' = K := by rw [hld]; field_simp
  -- the cheaper strike seen from the larger one
  have h1 := call_scale_imp (inv_pos.2 hl) _ t r b h
  rw [show l⁻¹ * K = K' by rw [hld]; field_simp, show l⁻¹ * S = S / l by rw [div_eq_inv_mul]] at h1
  obtain ⟨e, -⟩ := C38_critical_unique hb h1 h'
  rw [e] at h1
  have h1 : BAW.Call ⟨S / l, K', t, r, b, some σ⟩ Sk' (.ok (l⁻¹ * p)) := h1
  obtain ⟨p₀, hp₀⟩ := call_price_exists hb h' (1e-7 * K')
  have c0 := (C115_call (by positivity) hK' ht hσ hr hb hp₀ hSk').2.2
  have c1 := (C115_call hS hK' ht hσ hr hb h' hSk').1
  have b0 := bawTol_le (S := 1e-7 * K') (by positivity) hK' ht hr hb.le
  have b1 := bawTol_le hS hK' ht hr hb.le
  obtain ⟨r1, r2, -⟩ := near_scale (C := 2e-6 * K') (baw_near_call hK' ht hσ hr hb h' hSk') (.inl rfl) hK' hS hl hl1 h' h1 rfl hp₀
    (by norm_num at c0 b0 ⊢; linarith)
  have r2 := r2 rfl
  have lp : l * (l⁻¹ * p) = p := by field_simp
  rw [lp] at r1 r2
  unfold strikeTol
  have w1 : (1 - l) * (2e-6 * K') ≤ 2e-6 * K' := by
    have : 0 ≤ l * K' := by positivity
    norm_num at *; linarith
  have w2 : (1 - l) * (S - p') ≤ (1 - l) * (K' + (1.15e-6 * K' + 1.5e-7 * S)) :=
    mul_le_mul_of_nonneg_left (by linarith) (by linarith)
  have w3 : (1 - l) * (K' + (1.15e-6 * K' + 1.5e-7 * S)) ≤ (K' - K) + (1.15e-6 * K' + 1.5e-7 * S) := by
    have : 0 ≤ l * (1.15e-6 * K' + 1.5e-7 * S) := by positivity
    linarith
  clear h h1 h' hp₀ c0 b0 e
  norm_num at *
  constructor <;> linarith

/-- **C123, strike.** A put with a larger strike is dearer, by at most the difference of the strikes. -/
theorem C123_put {S K K' t r b σ Sk Sk' p p' : ℝ} (hS : 0 < S) (hK : 0 < K) (hKK : K ≤ K') (ht : 0 < t) (hσ : 0 < σ)
    (hr : 0 < r) (hb : b ≤ r) (h : BAW.Put ⟨S, K, t, r, b, some σ⟩ Sk (.ok p))
    (h' : BAW.Put ⟨S, K', t, r, b, some σ⟩ Sk' (.ok p')) (hSk : 0 < Sk) :
    p ≤ p' + strikeTol K' S ∧ p' ≤ p + (K' - K) + strikeTol K' S := by
  have hK' := hK.trans_le hKK
  have hSk' : 0 < Sk' := by
    have := C123_critical_put hK hK' h h'
    have h2 : 0 < Sk' / K' := this ▸ div_pos hSk hK
    exact (div_pos_iff_of_pos_right hK').1 h2
  set l := K / K' with hld
  have hl : 0 < l := div_pos hK hK'
  have hl1 : l ≤ 1 := (div_le_one hK').2 hKK
  have hlK : l * K' = K := by rw [hld]; field_simp
  have h1 := put_scale_imp (inv_pos.2 hl) _ t r b h
  rw [show l⁻¹ * K = K' by rw [hld]; field_simp, show l⁻¹ * S = S / l by rw [div_eq_inv_mul]] at h1
  have e := put_critical_unique h1 h'
  rw [e] at h1
  have h1 : BAW.Put ⟨S / l, K', t, r, b, some σ⟩ Sk' (.ok (l⁻¹ * p)) := h1
  obtain ⟨p₀, hp₀⟩ := put_price_exists h' (1e-7 * K')
  have c0 := (C115_put (by positivity) hK' ht hσ hr (.inl hb) hp₀ hSk').2.2
  have c1 := (C115_put hS hK' ht hσ hr (.inl hb) h' hSk').2.1
  have cp := (bsPut_pos r b hS hK' ht hσ).le
  have b0 := bawTol_le (S := 1e-7 * K') (by positivity) hK' ht hr hb
  have b1 := bawTol_le hS hK' ht hr hb
  obtain ⟨r1, -, r2⟩ := near_scale (C := K' + 2e-6 * K') (baw_near_put hK' ht hσ hr hb h' hSk') (.inr rfl) hK' hS hl hl1 h' h1 rfl hp₀
    (by norm_num at c0 b0 ⊢; linarith)
  have r2 := r2 rfl
  have lp : l * (l⁻¹ * p) = p := by field_simp
  rw [lp] at r1 r2
  unfold strikeTol
  have w1 : (1 - l) * (K' + 2e-6 * K') ≤ (K' - K) + 2e-6 * K' := by
    have : 0 ≤ l * (2e-6 * K') := by positivity
    linarith
  have w2 : (1 - l) * (-(1.15e-6 * K' + 1.5e-7 * S)) ≤ (1 - l) * p' :=
    mul_le_mul_of_nonneg_left (by linarith) (by linarith)
  have w3 : (1 - l) * (1.15e-6 * K' + 1.5e-7 * S) ≤ 1.15e-6 * K' + 1.5e-7 * S := by
    have : 0 ≤ l * (1.15e-6 * K' + 1.5e-7 * S) := by positivity
    linarith
  clear h h1 h' hp₀ c0 b0 e
  norm_num at *
  constructor <;> linarith

/-- The hypotheses hold at the option of C38's example: strikes one and two. -/
theorem C123_example :
    (∃ Sk p p', BAW.Call ⟨1, 1, 400, 1, 0, some 1⟩ Sk (.ok p) ∧ BAW.Call ⟨1, 2, 400, 1, 0, some 1⟩ (2 * Sk) (.ok p') ∧
      p' ≤ p + strikeTol 2 1 ∧ p ≤ p' + 1 + strikeTol 2 1) ∧
    (∃ Sk p p', BAW.Put ⟨1, 1, 400, 1, 0, some 1⟩ Sk (.ok p) ∧ BAW.Put ⟨1, 2, 400, 1, 0, some 1⟩ (2 * Sk) (.ok p') ∧
      p ≤ p' + strikeTol 2 1 ∧ p' ≤ p + 1 + strikeTol 2 1) := by
  constructor
  · obtain ⟨Sk, x, hSk, h⟩ := C38_call_example
    obtain ⟨p, hp⟩ := call_price_exists one_pos h 1
    obtain ⟨p', hp'⟩ := call_price_exists one_pos (call_scale_imp two_pos _ _ _ _ h) 1
    rw [mul_one] at hp'
    have := C123_call one_pos one_pos one_le_two (by norm_num) one_pos one_pos one_pos hp hp' hSk
    exact ⟨Sk, p, p', hp, hp', this.1, by linarith [this.2]⟩
  · obtain ⟨Sk, x, hSk, h⟩ := C38_put_example
    obtain ⟨p, hp⟩ := put_price_exists h 1
    obtain ⟨p', hp'⟩ := put_price_exists (put_scale_imp two_pos _ _ _ _ h) 1
    rw [mul_one] at hp'
    have := C123_put one_pos one_pos one_le_two (by norm_num) one_pos one_pos zero_le_one hp hp' hSk
    exact ⟨Sk, p, p', hp, hp', this.1, by linarith [this.2]⟩

end Verif.Props
