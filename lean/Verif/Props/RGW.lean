import Verif.Lemmas.Loop
import Verif.Lemmas.CBND
import Verif.Props.GBSAccuracy

/-!
C35, C36: the Roll–Geske–Whaley call.

C35 as stated is slightly too strong, in three ways that are shown below: with a zero spot the doubling loop
never ends (`C35_zero_spot_diverges`), with a dividend above the strike there is no sign change to find and
the search still returns (`C35_no_sign_change`), and if doubling the spot hits `1e8` exactly the search goes
on with an upper end at which the sign is wrong (the case `hi = 1e8` in `C35_search`).
-/
namespace Verif.Props
open Verif Verif.Py Verif.Spec Real

theorem doubling_terminates (f : ℝ → ℝ) {S : ℝ} (hS : 0 < S) (D K : ℝ) : ∃ h, RGW.Doubling f D K S h := by
  obtain ⟨n, hn⟩ := pow_unbounded_of_one_lt (RGW.big / S) (by norm_num : (1 : ℝ) < 2)
  rw [div_lt_iff₀ hS] at hn
  refine Loop.exists_of_bound (P := fun n h => RGW.big ≤ 2 ^ n * h) ?_ ?_ n S hn.le
  · intro s h hc
    simp only [pow_zero, one_mul] at h
    linarith [hc.2]
  · intro n s h _
    rw [pow_succ] at h
    linarith

theorem bisection_terminates (f : ℝ → ℝ) (D K : ℝ) (s : ℝ × ℝ × ℝ) (hs : s.2.2 = (s.2.1 + s.1) / 2) :
    ∃ s', RGW.Bisection f D K s s' := by
  have he : (0 : ℝ) < RGW.eps := by norm_num [RGW.eps]
  obtain ⟨n, hn⟩ := pow_unbounded_of_one_lt ((s.2.1 - s.1) / RGW.eps) (by norm_num : (1 : ℝ) < 2)
  rw [div_lt_iff₀ he] at hn
  refine Loop.exists_of_bound
    (P := fun n s => s.2.1 - s.1 ≤ 2 ^ n * RGW.eps ∧ s.2.2 = (s.2.1 + s.1) / 2) ?_ ?_ n s ⟨hn.le, hs⟩
  · rintro s ⟨h, -⟩ hc
    simp only [pow_zero, one_mul] at h
    linarith [hc.2]
  · rintro n s ⟨h, hI⟩ _
    rw [pow_succ] at h
    simp only [RGW.bisectStep]
    split_ifs <;> refine ⟨?_, trivial⟩ <;> linarith

/-- **C35.** For every positive spot and every pricing function `f`, the two search loops end, with exactly
one outcome: `ValueError`, or a positive price `I` that solves `f I = I + D - K` within `1e-5` or lies in an interval
no wider than `1e-5` whose lower end is `0` or has `f lo - lo - D + K ≥ 0` and whose upper end has
`f hi - hi - D + K ≤ 0` or is `1e8`. -/
theorem C35_search (f : ℝ → ℝ) {S : ℝ} (hS : 0 < S) (D K : ℝ) :
    ∃ y, RGW.Search f S D K y ∧ (∀ y', RGW.Search f S D K y' → y' = y) ∧
      (y = .error .valueError ∨ ∃ I, y = .ok I ∧ 0 < I ∧
        (|f I - I - D + K| ≤ 1e-5 ∨ ∃ lo hi, lo ≤ I ∧ I ≤ hi ∧ hi - lo ≤ 1e-5 ∧
          (lo = 0 ∨ 0 < lo ∧ 0 ≤ f lo - lo - D + K) ∧
          (f hi - hi - D + K ≤ 0 ∨ hi = 100000000 ∧ ∃ n : ℕ, S * 2 ^ n = 100000000))) := by
  obtain ⟨h, hd⟩ := doubling_terminates f hS D K
  have hpow : (∃ n : ℕ, h = S * 2 ^ n) ∧ 0 < h := by
    refine ⟨Loop.inv (P := fun h => ∃ n : ℕ, h = S * 2 ^ n) ?_ hd ⟨0, by simp⟩,
      Loop.inv (P := fun h => 0 < h) (fun s hs _ => by simpa using hs) hd hS⟩
    rintro s ⟨n, rfl⟩ _
    exact ⟨n + 1, by ring⟩
  by_cases hb : h > RGW.big
  · refine ⟨_, .tooHigh hd hb, ?_, .inl rfl⟩
    rintro y' (⟨_, _⟩ | ⟨hd', hb', _⟩)
    · rfl
    · rw [Loop.det hd hd'] at hb; exact absurd hb hb'
  · obtain ⟨⟨lo, hi, I⟩, hs⟩ := bisection_terminates f D K (0, h, h * 0.5) (by norm_num; ring)
    refine ⟨_, .found hd hb hs, ?_, .inr ⟨I, rfl, ?_⟩⟩
    · rintro y' (⟨hd', hb'⟩ | ⟨hd', _, hs'⟩)
      · rw [Loop.det hd' hd] at hb'; exact absurd hb' hb
      · rw [Loop.det hd' hd] at hs'
        have := Loop.det hs' hs
        simp only [Prod.mk.injEq] at this
        rw [this.2.2]
    · have hx := hs.exit
      have hdx := hd.exit
      have hinv := Loop.inv (P := fun s : ℝ × ℝ × ℝ => s.1 ≤ s.2.1 ∧ s.2.2 = (s.2.1 + s.1) / 2 ∧ 0 < s.2.1 ∧
          (s.1 = 0 ∨ 0 < s.1 ∧ 0 ≤ f s.1 - s.1 - D + K) ∧
          (f s.2.1 - s.2.1 - D + K ≤ 0 ∨ s.2.1 = 100000000 ∧ ∃ n : ℕ, S * 2 ^ n = 100000000)) ?_ hs ?_
      · obtain ⟨h1, h2, h3, h4, h5⟩ := hinv
        simp only at h1 h2 h3 h4 h5
        have hl : 0 ≤ lo := by rcases h4 with h4 | h4 <;> linarith [h4]
        refine ⟨by linarith, ?_⟩
        by_cases hI : |f I - I - D + K| ≤ 1e-5
        · exact .inl hI
        right
        have hw : hi - lo ≤ 1e-5 := by
          by_contra hc
          have heps : RGW.eps = 1e-5 := by norm_num [RGW.eps]
          exact hx ⟨by rw [heps]; exact not_le.1 hI, by rw [heps]; exact not_le.1 hc⟩
        exact ⟨lo, hi, by linarith, by linarith, hw, h4, h5⟩
      · rintro ⟨l, u, i⟩ ⟨h1, h2, h3, h4, h5⟩ hc
        have hl : 0 ≤ l := by rcases h4 with h4 | h4 <;> simp only at h4 <;> linarith [h4]
        simp only at h1 h2 h3 h4 h5
        simp only [RGW.bisectStep]
        by_cases hg : f i - i - D + K < 0
        · simp only [if_pos hg]
          exact ⟨by linarith, trivial, by linarith, h4, .inl hg.le⟩
        · simp only [if_neg hg]
          exact ⟨by linarith, trivial, h3, .inr ⟨by linarith, not_lt.1 hg⟩, h5⟩
      · refine ⟨by simpa using hpow.2.le, by norm_num; ring, hpow.2, .inl rfl, ?_⟩
        by_cases hg : f h - h - D + K > 0
        · right
          have h1 : ¬ h < RGW.big := fun k => hdx ⟨hg, k⟩
          have h2 : h = 100000000 := le_antisymm (not_lt.1 hb) (not_lt.1 h1)
          obtain ⟨n, hn⟩ := hpow.1
          exact ⟨h2, n, by rw [← hn, h2]⟩
        · exact .inl (not_lt.1 hg)

/-- **C35, part that holds as worded.** If the dividend is not above the strike (and the European call at a
worthless stock is not negative) and doubling the spot does not hit `1e8` exactly, the outcome is `ValueError`,
or the equation holds within `1e-5`, or the price lies in a sign-change interval no wider than `1e-5`.
Missing: `D > K`, `S = 1e8 / 2^n`, `S = 0`. -/
theorem C35_bracket_partial (f : ℝ → ℝ) {S : ℝ} (hS : 0 < S) {D K : ℝ} (hD : D ≤ K) (hf : 0 ≤ f 0)
    (hn : ∀ n : ℕ, S * 2 ^ n ≠ 100000000) :
    ∃ y, RGW.Search f S D K y ∧ (y = .error .valueError ∨ ∃ I, y = .ok I ∧
        (|f I - I - D + K| ≤ 1e-5 ∨ ∃ lo hi, lo ≤ I ∧ I ≤ hi ∧ hi - lo ≤ 1e-5 ∧
          0 ≤ f lo - lo - D + K ∧ f hi - hi - D + K ≤ 0)) := by
  obtain ⟨y, hy, -, h⟩ := C35_search f hS D K
  refine ⟨y, hy, ?_⟩
  rcases h with h | ⟨I, hI, -, h | ⟨lo, hi, h1, h2, h3, h4, h5⟩⟩
  · exact .inl h
  · exact .inr ⟨I, hI, .inl h⟩
  · refine .inr ⟨I, hI, .inr ⟨lo, hi, h1, h2, h3, ?_, ?_⟩⟩
    · rcases h4 with rfl | h4
      · linarith
      · exact h4.2
    · rcases h5 with h5 | ⟨_, n, h5⟩
      · exact h5
      · exact absurd h5 (hn n)

/-- When the search raises, doubling the spot passed `1e8`, with early exercise unprofitable all the way. -/
theorem C35_error (f : ℝ → ℝ) {S D K : ℝ} (h : RGW.Search f S D K (.error .valueError)) :
    ∃ n : ℕ, 100000000 < S * 2 ^ n ∧ ∀ m < n, 0 < f (S * 2 ^ m) - S * 2 ^ m - D + K := by
  obtain ⟨hd, hb⟩ | _ := h
  rename_i x
  have key : ∀ s s', Loop (fun h => f h - h - D + K > 0 ∧ h < RGW.big) (fun h => h * 2) s s' →
      ∃ n : ℕ, s' = s * 2 ^ n ∧ ∀ m < n, 0 < f (s * 2 ^ m) - s * 2 ^ m - D + K := by
    intro s s' hl
    induction hl with
    | stop _ => exact ⟨0, by simp, by simp⟩
    | @step s s' hc _ ih =>
      obtain ⟨n, hn, hm⟩ := ih
      refine ⟨n + 1, by rw [hn]; ring, ?_⟩
      intro m hmn
      cases m with
      | zero => simpa using hc.1
      | succ m =>
        have := hm m (by omega)
        rwa [show s * 2 * 2 ^ m = s * 2 ^ (m + 1) by ring] at this
  obtain ⟨n, hn, hm⟩ := key _ _ hd
  exact ⟨n, by rw [← hn]; exact hb, hm⟩

/-- **C35 fails** for a zero spot: if the strike exceeds the dividend (and the European call on a worthless
stock is worth nothing), the doubling loop never ends, so `call()` returns nothing and raises nothing. -/
theorem C35_zero_spot_diverges (f : ℝ → ℝ) (hf : f 0 = 0) {D K : ℝ} (h : D < K) (y : Except PyErr ℝ) :
    ¬ RGW.Search f 0 D K y := by
  have key : ∀ s s', Loop (fun h => f h - h - D + K > 0 ∧ h < RGW.big) (fun h => h * 2) s s' → s ≠ 0 := by
    intro s s' hl
    induction hl with
    | stop hc =>
      rintro rfl
      exact hc ⟨by rw [hf]; linarith, by norm_num [RGW.big]⟩
    | step _ _ ih =>
      rintro rfl
      exact ih (by simp)
  rintro (⟨hd, _⟩ | ⟨hd, _, _⟩) <;> exact key _ _ hd rfl

/-- **C35 fails** for a dividend above the strike: a European call is worth no more than the stock, so the
exercise equation has no solution and no sign change anywhere, yet the search returns a price (next to zero)
unless the spot is above `1e8`. -/
theorem C35_no_sign_change (f : ℝ → ℝ) (hf : ∀ x, 0 < x → f x ≤ x) {S : ℝ} (hS : 0 < S) (hS' : S ≤ 100000000)
    {D K : ℝ} (h : K + 1e-5 < D) :
    (∀ x, 0 < x → f x - x - D + K < -1e-5) ∧ ∃ I, RGW.Search f S D K (.ok I) ∧ I ≤ 1e-5 := by
  have hneg : ∀ x, 0 < x → f x - x - D + K < -1e-5 := fun x hx => by linarith [hf x hx]
  refine ⟨hneg, ?_⟩
  have hd : RGW.Doubling f D K S S := .stop fun k => by
    have h1 := hneg S hS
    have h2 := k.1
    norm_num at h1
    linarith
  obtain ⟨⟨lo, hi, I⟩, hs⟩ := bisection_terminates f D K (0, S, S * 0.5) (by norm_num; ring)
  refine ⟨I, .found hd (not_lt.2 hS') hs, ?_⟩
  have hinv := Loop.inv (P := fun s : ℝ × ℝ × ℝ => s.1 = 0 ∧ 0 < s.2.1 ∧ s.2.2 = (s.2.1 + s.1) / 2) ?_ hs
    ⟨rfl, hS, by norm_num; ring⟩
  · obtain ⟨h1, h2, h3⟩ := hinv
    simp only at h1 h2 h3
    have hx := hs.exit
    have hI : 0 < I := by rw [h3, h1]; linarith
    have h4 : |f I - I - D + K| > RGW.eps := by
      rw [abs_of_neg (by have := hneg I hI; norm_num at this; linarith)]
      have := hneg I hI
      norm_num [RGW.eps] at this ⊢
      linarith
    have h5 : ¬ (hi - lo > RGW.eps) := fun k => hx ⟨h4, k⟩
    rw [not_lt] at h5
    norm_num [RGW.eps] at h5 ⊢
    linarith
  · rintro ⟨l, u, i⟩ ⟨h1, h2, h3⟩ _
    simp only at h1 h2 h3
    have hi : 0 < i := by rw [h3, h1]; linarith
    have hg : f i - i - D + K < 0 := by have := hneg i hi; norm_num at this; linarith
    simp only [RGW.bisectStep, if_pos hg]
    exact ⟨h1, hi, trivial⟩

/-- **C35 for the method.** With a positive spot `call()` always returns or raises, in one way only, and the
only exception is `ValueError`. -/
theorem C35_call_total (o : RGW) (hS : 0 < o.S) :
    ∃ x, o.Call x ∧ (∀ x', o.Call x' → x' = x) ∧ ((∃ v, x = .ok v) ∨ x = .error .valueError) := by
  unfold RGW.Call
  by_cases hD : o.D ≤ o.K * (1 - exp (-o.r * (o.t - o.td)))
  · simp only [if_pos hD]
    refine ⟨_, rfl, fun _ h => h, ?_⟩
    cases o.sigma with
    | none => exact .inr rfl
    | some σ => exact .inl ⟨_, rfl⟩
  · simp only [if_neg hD]
    cases o.sigma with
    | none => exact ⟨_, rfl, fun _ h => h, .inr rfl⟩
    | some σ =>
      obtain ⟨y, hy, hu, h⟩ := C35_search (fun s => gbsCallNum s o.K (o.t - o.td) o.r o.r σ) hS o.D o.K
      refine ⟨_, ⟨y, hy, rfl⟩, ?_, ?_⟩
      · rintro x' ⟨y', hy', rfl⟩
        rw [hu y' hy']
      · rcases h with rfl | ⟨I, rfl, _⟩
        · exact .inr rfl
        · left
          simp only [RGW.finish, CBND_eq 1, RGW.numOf]
          exact ⟨_, rfl⟩


/-- **C36.** If the dividend is at most the interest on the strike, `is_call_optimal()` is `False` and `call()`
does exactly what `GBSOption(S - D e^{-r td}, K, t, r, r, sigma).call()` does; and conversely
`is_call_optimal()` is `False` only then. -/
theorem C36_european (o : RGW) :
    (o.isCallOptimal = false ↔ o.D ≤ o.K * (1 - exp (-o.r * (o.t - o.td)))) ∧
    (o.isCallOptimal = false → ∀ x, o.Call x ↔
      x = (GBS.new (o.S - o.D * exp (-o.r * o.td)) o.K o.t o.r o.r o.sigma).call) := by
  have h : o.isCallOptimal = false ↔ o.D ≤ o.K * (1 - exp (-o.r * (o.t - o.td))) := by
    unfold RGW.isCallOptimal
    split <;> simp_all
  refine ⟨h, fun h' x => ?_⟩
  rw [RGW.Call, if_pos (h.1 h')]

/-- **C36**, against the specification: the price is the expected discounted payoff on the dividend-adjusted
stock, up to the error of the normal approximation. -/
theorem C36_accuracy (S K t td r D σ : ℝ) (hD : D ≤ K * (1 - exp (-r * (t - td))))
    (hS : 0 < S - D * exp (-r * td)) (hK : 0 < K) (ht : 0 < t) (hσ : 0 < σ) :
    ∃ x, (∀ y, RGW.Call ⟨S, K, t, td, r, D, some σ⟩ y ↔ y = .ok x) ∧
      |x - bsCall (S - D * exp (-r * td)) K t r r σ|
        ≤ 7.5e-8 * ((S - D * exp (-r * td)) + K * exp (-r * t)) := by
  obtain ⟨x, hx, he⟩ := C02_price_accuracy ⟨hS, hK, ht, hσ⟩ r r true
  refine ⟨x, fun y => ?_, by simpa [bsPrice] using he⟩
  have := (C36_european ⟨S, K, t, td, r, D, some σ⟩)
  rw [this.2 (this.1.2 hD), ← hx]
  rfl

/-- Non-vacuous: a zero dividend at positive interest is never worth exercising for. -/
theorem C36_example : RGW.isCallOptimal ⟨100, 90, 1, 1 / 2, 0.1, 0, some 0.3⟩ = false := by
  rw [(C36_european _).1]
  have : exp (-0.1 * (1 - 1 / 2)) ≤ 1 := exp_le_one_iff.2 (by norm_num)
  simp only
  nlinarith

/-- Non-vacuous for C35: the search applies at ordinary parameters. -/
theorem C35_example : RGW.isCallOptimal ⟨80, 82, 1 / 3, 1 / 4, 0.06, 4, some 0.3⟩ = true := by
  have h := (C36_european ⟨80, 82, 1 / 3, 1 / 4, 0.06, 4, some 0.3⟩).1
  by_contra hc
  rw [Bool.not_eq_true] at hc
  have h1 := h.1 hc
  simp only at h1
  have : 1 - 0.06 * (1 / 3 - 1 / 4) ≤ exp (-0.06 * (1 / 3 - 1 / 4)) := by
    have := add_one_le_exp (-0.06 * (1 / 3 - 1 / 4) : ℝ)
    linarith
  norm_num at this h1
  linarith

end Verif.Props
