import Verif.Lemmas.BarrierAmerican
import Verif.Props.BS93Value
import Verif.Props.AmericanLimit

/-!
# C97: the Bjerksund–Stensland price is a lower bound for the American option value

`Spec.american` is the supremum over `n` of the values of the options that may be exercised at `n` equidistant dates;
it knows nothing of triggers or barriers. The price the class returns never exceeds it by more than the error of
`CND`, hence neither the limit of the American lattice prices.
-/
namespace Verif.Props
open Real Filter Verif.Spec _root_.Verif.Tree
open scoped Topology

theorem american_ge_exercise_put {S K t : ℝ} (hS : 0 < S) (hK : 0 < K) (ht : 0 < t) {r : ℝ} (hr : 0 ≤ r) (b σ : ℝ) :
    K - S ≤ american false S K t r b σ := by
  refine le_trans ?_ (american_put_bounds (b := b) (σ := σ) hS hK ht.le hr).2.1
  simp only [exercise, Bool.false_eq_true, if_false]
  exact le_max_left _ _

/-- **C97.** A call exercised at any fixed level `I ≥ K` is worth no more than the American call. -/
theorem C97_level_call {r b σ K I : ℝ} (hK : 0 < K) (hKI : K ≤ I) (hσ : 0 < σ) (hb : b < r) {V : ℝ → ℝ → ℝ}
    (hV : IsBarrierCall r b σ K I V) {S T : ℝ} (hS : 0 < S) (hSI : S < I) (hT : 0 < T) :
    V S T ≤ american true S K T r b σ := by
  obtain ⟨hβ, hroot⟩ := bs_beta hσ hb
  exact barrierCall_le hb.le hσ hK hKI (β := BS93.beta r b σ) (by linarith) (by unfold powRate; linear_combination hroot)
    hV hS hSI hT

/-- **C97.** A put exercised at any fixed level `0 < L ≤ K` is worth no more than the American put. -/
theorem C97_level_put {r b σ K L : ℝ} (hK : 0 < K) (hL : 0 < L) (hLK : L ≤ K) (hσ : 0 < σ) (hr : 0 < r) {V : ℝ → ℝ → ℝ}
    (hV : IsBarrierPut r b σ K L V) {S T : ℝ} (hS : L < S) (hT : 0 < T) :
    V S T ≤ american false S K T r b σ := by
  obtain ⟨hβ, hroot⟩ := bs_beta (r := r - b) (b := -b) hσ (by linarith)
  exact barrierPut_le hr.le hσ hK hL hLK (β := BS93.beta (r - b) (-b) σ) (by linarith)
    (by unfold powRate; linear_combination hroot) hV hS hT

/-- **C97.** `call()` with `b < r`: the price is at most the American value plus the error of the normal distribution
(`S < I`), or at most the American value (`S ≥ I`). -/
theorem C97_call {S K T r b σ : ℝ} (h : Valid S K T σ) (hb : b < r) (h0 : 0 ≤ b * T + 2 * σ * √T) :
    ∃ p I, BS93.call ⟨S, K, T, r, b, some σ⟩ = .ok (p, some I) ∧
      (S < I → p ≤ american true S K T r b σ + bs93Err S K T r b σ I) ∧
      (I ≤ S → p ≤ american true S K T r b σ) := by
  obtain ⟨p, I, hc, hKI, hge, hlt⟩ := C76_call h.S h.K h.t h.σ hb h0
  refine ⟨p, I, hc, fun hSI => ?_, fun hIS => ?_⟩
  · obtain ⟨V, hV⟩ := C76_spec_exists h.K hKI h.σ hb
    have h1 := (abs_le.1 (hlt hSI V hV)).2
    have h2 := C97_level_call h.K hKI h.σ hb hV h.S hSI h.t
    linarith
  · rw [hge hIS, american_symmetry h.S h.K h.t.le]
    exact american_ge_exercise_put h.K h.S h.t (by linarith) (-b) σ

/-- **C97.** `put()` with `r > 0`; `I` is the trigger of the dual call, compared with the strike. -/
theorem C97_put {S K T r b σ : ℝ} (h : Valid S K T σ) (hr : 0 < r) (h0 : 0 ≤ -b * T + 2 * σ * √T) :
    ∃ p I, BS93.put ⟨S, K, T, r, b, some σ⟩ = .ok (p, some I) ∧
      (K < I → p ≤ american false S K T r b σ + bs93Err K S T (r - b) (-b) σ I) ∧
      (I ≤ K → p ≤ american false S K T r b σ) := by
  obtain ⟨p, I, hc, h1, h2⟩ := C97_call (S := K) (K := S) (r := r - b) (b := -b) ⟨h.K, h.S, h.t, h.σ⟩ (by linarith) h0
  have e := american_symmetry (r := r - b) (b := -b) (σ := σ) h.K h.S h.t.le
  rw [show r - b - -b = r by ring, neg_neg] at e
  rw [e] at h1 h2
  exact ⟨p, I, hc, h1, h2⟩

/-- **C97.** `call()` with `0 ≤ r ≤ b`: the European price, which then is the American value up to the error of the normal
distribution, and no trigger. -/
theorem C97_call_carry {S K T r b σ : ℝ} (h : Valid S K T σ) (hr : 0 ≤ r) (hb : r ≤ b) :
    ∃ p, BS93.call ⟨S, K, T, r, b, some σ⟩ = .ok (p, none) ∧
      |p - american true S K T r b σ| ≤ 7.5e-8 * (S * exp ((b - r) * T) + K * exp (-r * T)) := by
  obtain ⟨p, hp, he⟩ := C02_price_accuracy h r b true
  refine ⟨p, ?_, ?_⟩
  · rw [C39_call_european ⟨S, K, T, r, b, some σ⟩ hb]
    have : (GBS.new S K T r b (some σ)).call = .ok p := hp
    simp only [this]
    rfl
  · rw [american_call_european h.S.le h.K.le h.t.le hr hb]
    exact he

/-- **C97.** With enough steps every American put lattice lies above the Bjerksund–Stensland put, up to any tolerance and
the error of the normal distribution. -/
theorem C97_trees_put (c : Cls) {S K T r b σ : ℝ} (h : Valid S K T σ) (hr : 0 < r) (h0 : 0 ≤ -b * T + 2 * σ * √T)
    {ε : ℝ} (hε : 0 < ε) :
    ∃ p I, BS93.put ⟨S, K, T, r, b, some σ⟩ = .ok (p, some I) ∧ ∀ᶠ n : ℕ in atTop, ∃ x,
      price c ⟨S, K, T, r, b, σ, "american", n⟩ false = .ok x ∧
        p - (if K < I then bs93Err K S T (r - b) (-b) σ I else 0) - ε < x := by
  obtain ⟨p, I, hc, h1, h2⟩ := C97_put h hr h0
  refine ⟨p, I, hc, ?_⟩
  filter_upwards [C95_limit_put c h hr.le b hε] with n ⟨x, hx, hb⟩
  refine ⟨x, hx, ?_⟩
  have hb := (abs_lt.1 hb).1
  split
  next hKI => linarith [h1 hKI]
  next hKI => linarith [h2 (not_lt.1 hKI)]

/-- **C97.** The same for calls and the CRR lattice. -/
theorem C97_trees_call {S K T r b σ : ℝ} (h : Valid S K T σ) (hb : b < r) (h0 : 0 ≤ b * T + 2 * σ * √T)
    {ε : ℝ} (hε : 0 < ε) :
    ∃ p I, BS93.call ⟨S, K, T, r, b, some σ⟩ = .ok (p, some I) ∧ ∀ᶠ n : ℕ in atTop, ∃ x,
      price .crr ⟨S, K, T, r, b, σ, "american", n⟩ true = .ok x ∧
        p - (if S < I then bs93Err S K T r b σ I else 0) - ε < x := by
  obtain ⟨p, I, hc, h1, h2⟩ := C97_call h hb h0
  refine ⟨p, I, hc, ?_⟩
  filter_upwards [C95_limit_call h (Or.inl hb.le) hε] with n ⟨x, hx, hb⟩
  refine ⟨x, hx, ?_⟩
  have hb := (abs_lt.1 hb).1
  split
  next hSI => linarith [h1 hSI]
  next hSI => linarith [h2 (not_lt.1 hSI)]

/-- Non-vacuous: the textbook call, of strike 40, is bounded, by the American value, which is at most the spot, plus the
error. -/
theorem C97_example : ∃ p I, BS93.call ⟨42, 40, 0.75, 0.04, -0.04, some 0.35⟩ = .ok (p, some I) ∧
    (42 < I → p ≤ american true 42 40 0.75 0.04 (-0.04) 0.35 + bs93Err 42 40 0.75 0.04 (-0.04) 0.35 I) ∧
    american true 42 40 0.75 0.04 (-0.04) 0.35 ≤ 42 ∧ 2 ≤ american true 42 40 0.75 0.04 (-0.04) 0.35 := by
  have h0 : (0 : ℝ) ≤ -0.04 * 0.75 + 2 * 0.35 * √0.75 := by
    have : (0.5 : ℝ) ≤ √0.75 := Real.le_sqrt_of_sq_le (by norm_num)
    norm_num at *; linarith
  have h : Valid 42 40 0.75 0.35 := ⟨by norm_num, by norm_num, by norm_num, by norm_num⟩
  obtain ⟨p, I, h1, h2, -⟩ := C97_call (r := 0.04) (b := -0.04) h (by norm_num) h0
  refine ⟨p, I, h1, h2, ?_, ?_⟩
  · rw [american_symmetry h.S h.K h.t.le]
    exact (american_put_bounds h.K h.S h.t.le (by norm_num)).2.2
  · rw [american_symmetry h.S h.K h.t.le]
    exact le_trans (by norm_num) (american_ge_exercise_put h.K h.S h.t (by norm_num) _ _)

end Verif.Props
