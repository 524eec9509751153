import Verif.Props.AmericanLimitCall
import Verif.Props.BS93American

/-!
# C95 and C97 for the remaining lattices

The trinomial call in the limit (C95), and the comparison of the Bjerksund–Stensland price with the lattices (C97) for all
binomial classes and the trinomial class, calls and puts.
-/

namespace Verif.Props
open Verif Verif.Spec Real Filter _root_.Verif.Tree
open scoped Topology

/-- **C94** for American trinomial calls with `0 ≤ r ≤ b`. -/
theorem C94_american_call_trinomial {S K t σ : ℝ} (h : Valid S K t σ) {r b : ℝ} (hr : 0 ≤ r) (hb : r ≤ b) {n : ℕ} (hn : 0 < n)
    (hs : (|b| + σ ^ 2 / 2) / σ * √(t / (2 * n)) ≤ 1) :
    ∃ x, price3 ⟨S, K, t, r, b, σ, "american", n⟩ true = .ok x ∧
      |x - bsCall S K t r b σ| ≤ K * exp (-r * t) * (σ * √(t / (2 * n)))
        * (4 + 17 * ((|b| + σ ^ 2 / 2) / σ * √t) * (1 + σ * √t)) := by
  have e0 : t / n / 2 = t / (2 * n) := by rw [div_div, mul_comm (n : ℝ)]
  have hbs : |b| * √(t / n / 2) ≤ σ := by
    rw [e0]
    rw [div_mul_eq_mul_div, div_le_one h.σ] at hs
    have : 0 ≤ σ ^ 2 / 2 * √(t / (2 * n)) := by positivity
    linarith
  have e := C22_trinomial (⟨S, K, t, r, b, σ, "american", n⟩ : Opt) ⟨h.t, h.σ, hn⟩ hbs h.S.le h.K.le hr hb
  obtain ⟨x, hx, hx'⟩ := C94_trinomial true h r b hn hs
  exact ⟨x, e.trans hx, hx'⟩

/-- **C95**, limit of American trinomial calls, whenever `b ≤ r` or `0 ≤ r`. -/
theorem C95_limit_trinomial_call {S K t σ : ℝ} (h : Valid S K t σ) {r b : ℝ} (hrb : b ≤ r ∨ 0 ≤ r) {ε : ℝ} (hε : 0 < ε) :
    ∀ᶠ n : ℕ in atTop, ∃ x, price3 ⟨S, K, t, r, b, σ, "american", n⟩ true = .ok x ∧
      |x - american true S K t r b σ| < ε := by
  have hstep : ∀ᶠ n : ℕ in atTop, (|b| + σ ^ 2 / 2) / σ * √(t / (2 * n)) ≤ 1 := by
    filter_upwards [step_eventually ((|b| + σ ^ 2 / 2) / σ) (t / 2)] with n hs
    rwa [div_div] at hs
  by_cases hb : b ≤ r
  · refine close_eventually (rate_tendsto S (2 * (15 + 31 * ((|b| + σ ^ 2 / 2) / σ * √t) * (1 + σ * √t)) * (σ * √t)) (r - b) (-b) t) ?_
      hε
    filter_upwards [eventually_gt_atTop 0, hstep] with n hn hs
    exact C95_trinomial_call h hb hn hs
  · have hr := hrb.resolve_left hb
    have hb := (not_le.1 hb).le
    refine close_eventually (B := fun n : ℕ => K * exp (-r * t) * (σ * √(t / (2 * n)))
      * (4 + 17 * ((|b| + σ ^ 2 / 2) / σ * √t) * (1 + σ * √t))) ?_ ?_ hε
    · have h0 : Tendsto (fun n : ℕ => √(t / 2 / n)) atTop (𝓝 (√0)) :=
        (continuous_sqrt.tendsto 0).comp (tendsto_natCast_atTop_atTop.const_div_atTop (t / 2))
      have h1 := ((h0.const_mul σ).const_mul (K * exp (-r * t))).mul_const
        (4 + 17 * ((|b| + σ ^ 2 / 2) / σ * √t) * (1 + σ * √t))
      rw [sqrt_zero, mul_zero, mul_zero, zero_mul] at h1
      simpa only [div_div] using h1
    · filter_upwards [eventually_gt_atTop 0, hstep] with n hn hs
      rw [american_call_european h.S.le h.K.le h.t.le hr hb]
      exact C94_american_call_trinomial h hr hb hn hs

/-- **C95**, all tree classes agree in the limit on American calls. -/
theorem C95_classes_agree_call (c c' : Cls) {S K t σ : ℝ} (h : Valid S K t σ) {r b : ℝ} (hrb : b ≤ r ∨ 0 ≤ r) {ε : ℝ}
    (hε : 0 < ε) :
    ∃ N : ℕ, ∀ n ≥ N, ∀ m ≥ N, ∃ x y z, price c ⟨S, K, t, r, b, σ, "american", n⟩ true = .ok x ∧
      price c' ⟨S, K, t, r, b, σ, "american", m⟩ true = .ok y ∧
      price3 ⟨S, K, t, r, b, σ, "american", m⟩ true = .ok z ∧ |x - y| < ε ∧ |x - z| < ε := by
  have hε2 : 0 < ε / 2 := by linarith
  obtain ⟨N₁, h₁⟩ := eventually_atTop.1 (C95_limit_call_classes c h hrb hε2)
  obtain ⟨N₂, h₂⟩ := eventually_atTop.1 (C95_limit_call_classes c' h hrb hε2)
  obtain ⟨N₃, h₃⟩ := eventually_atTop.1 (C95_limit_trinomial_call h hrb hε2)
  refine ⟨max N₁ (max N₂ N₃), fun n hn m hm => ?_⟩
  simp only [ge_iff_le, max_le_iff] at hn hm
  obtain ⟨x, hx, dx⟩ := h₁ n hn.1
  obtain ⟨y, hy, dy⟩ := h₂ m hm.2.1
  obtain ⟨z, hz, dz⟩ := h₃ m hm.2.2
  rw [abs_lt] at dx dy dz
  exact ⟨x, y, z, hx, hy, hz, abs_lt.2 ⟨by linarith, by linarith⟩, abs_lt.2 ⟨by linarith, by linarith⟩⟩

/-- **C97.** With enough steps the American call lattices of all three binomial classes and of the trinomial class lie above
the Bjerksund–Stensland call, up to any tolerance and the error of the normal distribution. -/
theorem C97_trees_call_classes (c : Cls) {S K T r b σ : ℝ} (h : Valid S K T σ) (hb : b < r) (h0 : 0 ≤ b * T + 2 * σ * √T)
    {ε : ℝ} (hε : 0 < ε) :
    ∃ p I, BS93.call ⟨S, K, T, r, b, some σ⟩ = .ok (p, some I) ∧ ∀ᶠ n : ℕ in atTop, ∃ x y,
      price c ⟨S, K, T, r, b, σ, "american", n⟩ true = .ok x ∧ price3 ⟨S, K, T, r, b, σ, "american", n⟩ true = .ok y ∧
        p - (if S < I then bs93Err S K T r b σ I else 0) - ε < min x y := by
  obtain ⟨p, I, hc, h1, h2⟩ := C97_call h hb h0
  refine ⟨p, I, hc, ?_⟩
  filter_upwards [C95_limit_call_classes c h (Or.inl hb.le) hε, C95_limit_trinomial_call h (Or.inl hb.le) hε]
    with n ⟨x, hx, dx⟩ ⟨y, hy, dy⟩
  have dx := (abs_lt.1 dx).1
  have dy := (abs_lt.1 dy).1
  refine ⟨x, y, hx, hy, lt_min ?_ ?_⟩ <;> split
  · linarith [h1 ‹_›]
  · linarith [h2 (not_lt.1 ‹_›)]
  · linarith [h1 ‹_›]
  · linarith [h2 (not_lt.1 ‹_›)]

/-- **C97.** The same for trinomial puts. -/
theorem C97_trees_put_trinomial {S K T r b σ : ℝ} (h : Valid S K T σ) (hr : 0 < r) (h0 : 0 ≤ -b * T + 2 * σ * √T)
    {ε : ℝ} (hε : 0 < ε) :
    ∃ p I, BS93.put ⟨S, K, T, r, b, some σ⟩ = .ok (p, some I) ∧ ∀ᶠ n : ℕ in atTop, ∃ x,
      price3 ⟨S, K, T, r, b, σ, "american", n⟩ false = .ok x ∧
        p - (if K < I then bs93Err K S T (r - b) (-b) σ I else 0) - ε < x := by
  obtain ⟨p, I, hc, h1, h2⟩ := C97_put h hr h0
  refine ⟨p, I, hc, ?_⟩
  filter_upwards [C95_limit_trinomial h hr.le b hε] with n ⟨x, hx, hb⟩
  refine ⟨x, hx, ?_⟩
  have hb := (abs_lt.1 hb).1
  split
  next hKI => linarith [h1 hKI]
  next hKI => linarith [h2 (not_lt.1 hKI)]

/-- Non-vacuous: the textbook contract, for all classes. -/
theorem C97_trees_example (c : Cls) :
    ∃ p I, BS93.call ⟨42, 40, 0.75, 0.04, -0.04, some 0.35⟩ = .ok (p, some I) ∧ ∀ᶠ n : ℕ in atTop, ∃ x y,
      price c ⟨42, 40, 0.75, 0.04, -0.04, 0.35, "american", n⟩ true = .ok x ∧
      price3 ⟨42, 40, 0.75, 0.04, -0.04, 0.35, "american", n⟩ true = .ok y ∧
      p - (if 42 < I then bs93Err 42 40 0.75 0.04 (-0.04) 0.35 I else 0) - 0.001 < min x y := by
  have hs : (0.5 : ℝ) ≤ √0.75 := le_sqrt_of_sq_le (by norm_num)
  exact C97_trees_call_classes c ⟨by norm_num, by norm_num, by norm_num, by norm_num⟩ (by norm_num) (by linarith)
    (by norm_num)

end Verif.Props
