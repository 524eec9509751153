import Verif.Lemmas.CBNDEdge
import Verif.Lemmas.Loop
import Verif.Props.Expiry
import Verif.Props.RGW
/-!
C134 — `RollGeskeWhaleyOption.call()` for dividends paid today, in the past or after expiry, for a dividend that exceeds the
spot, and inside the domain, computing with `nan` and infinities as `numpy` does.
-/
namespace Verif.Props
open Real Verif.Py Verif.Spec
open Fl (num)
open RGWEdge (Out)

/-! ### The search -/

theorem edge_doubling_terminates (f : ℝ → Fl) {S : ℝ} (hS : 0 < S) (D K : ℝ) : ∃ h, RGWEdge.Doubling f D K S h := by
  obtain ⟨n, hn⟩ := pow_unbounded_of_one_lt (RGW.big / S) (by norm_num : (1 : ℝ) < 2)
  rw [div_lt_iff₀ hS] at hn
  refine Loop.exists_of_bound (P := fun n h => RGW.big ≤ 2 ^ n * h) ?_ ?_ n S hn.le
  · intro s h hc
    simp only [pow_zero, one_mul] at h
    linarith [hc.2]
  · intro n s h _
    rw [pow_succ] at h
    linarith

theorem edge_bisection_terminates (f : ℝ → Fl) (D K : ℝ) (s : ℝ × ℝ × ℝ) (hs : s.2.2 = (s.2.1 + s.1) / 2) :
    ∃ s', RGWEdge.Bisection f D K s s' := by
  have he : (0 : ℝ) < RGW.eps := by norm_num [RGW.eps]
  obtain ⟨n, hn⟩ := pow_unbounded_of_one_lt ((s.2.1 - s.1) / RGW.eps) (by norm_num : (1 : ℝ) < 2)
  rw [div_lt_iff₀ he] at hn
  refine Loop.exists_of_bound
    (P := fun n s => s.2.1 - s.1 ≤ 2 ^ n * RGW.eps ∧ s.2.2 = (s.2.1 + s.1) / 2) ?_ ?_ n s ⟨hn.le, hs⟩
  · rintro s ⟨h, -⟩ hc
    simp only [pow_zero, one_mul] at h
    linarith [hc.2]
  · rintro n s ⟨h, hI⟩ _
    rw [pow_succ] at h
    simp only [RGWEdge.bisectStep]
    split_ifs <;> refine ⟨?_, trivial⟩ <;> linarith

theorem edge_search_exists (f : ℝ → Fl) {S : ℝ} (hS : 0 < S) (D K : ℝ) : ∃ y, RGWEdge.Search f S D K y := by
  obtain ⟨h, hd⟩ := edge_doubling_terminates f hS D K
  by_cases hb : h > RGW.big
  · exact ⟨_, .tooHigh hd hb⟩
  · obtain ⟨⟨lo, hi, I⟩, hs⟩ := edge_bisection_terminates f D K (0, h, h * 0.5) (by norm_num; ring)
    exact ⟨_, .found hd hb hs⟩

theorem edge_search_det {f : ℝ → Fl} {S D K : ℝ} {y y' : Except PyErr ℝ} (h : RGWEdge.Search f S D K y)
    (h' : RGWEdge.Search f S D K y') : y = y' := by
  rcases h with ⟨hd, hb⟩ | ⟨hd, hb, hs⟩ <;> rcases h' with ⟨hd', hb'⟩ | ⟨hd', hb', hs'⟩
  · rfl
  · rw [Loop.det hd hd'] at hb; exact absurd hb hb'
  · rw [Loop.det hd hd'] at hb; exact absurd hb' hb
  · rw [Loop.det hd hd'] at hs
    have := Loop.det hs hs'
    simp only [Prod.mk.injEq] at this
    rw [this.2.2]

theorem edge_search_pos {f : ℝ → Fl} {S D K I : ℝ} (hS : 0 < S) (h : RGWEdge.Search f S D K (.ok I)) : 0 < I := by
  rcases h with _ | ⟨hd, -, hs⟩
  have h0 := Loop.inv (P := fun h => 0 < h) (fun s hs _ => by simpa using hs) hd hS
  refine (Loop.inv (P := fun s : ℝ × ℝ × ℝ => 0 ≤ s.1 ∧ 0 < s.2.1 ∧ 0 < s.2.2) ?_ hs
    ⟨le_rfl, h0, show 0 < _ by simp only; positivity⟩).2.2
  rintro ⟨lo, hi, I⟩ ⟨h1, h2, h3⟩ -
  simp only [RGWEdge.bisectStep] at *
  split_ifs
  · exact ⟨h1, h3, by positivity⟩
  · exact ⟨h3.le, h2, by positivity⟩

theorem edge_call_exists (K t td r D σ : ℝ) {S : ℝ} (hS : 0 < S) :
    ∃ x, RGWEdge.Call S K t td r D σ x ∧ ∀ x', RGWEdge.Call S K t td r D σ x' → x' = x := by
  by_cases h : D ≤ K * (1 - exp (-r * (t - td)))
  · simp only [RGWEdge.Call, if_pos h]
    exact ⟨_, rfl, fun _ h => h⟩
  · simp only [RGWEdge.Call, if_neg h]
    obtain ⟨y, hy⟩ := edge_search_exists (RGWEdge.ci K t td r σ) hS D K
    refine ⟨_, ⟨y, hy, rfl⟩, ?_⟩
    rintro x' ⟨y', hy', rfl⟩
    rw [edge_search_det hy' hy]

/-! ### Inside the domain -/

section inside
variable {S K t td r D σ : ℝ}

theorem edge_gap {f : ℝ → Fl} {g : ℝ → ℝ} {D K h : ℝ} (hf : f h = num (g h)) :
    RGWEdge.gap f D K h = num (g h - h - D + K) := by
  simp only [RGWEdge.gap, hf, Fl.num_sub, Fl.num_add]

theorem edge_doubling_iff {f : ℝ → Fl} {g : ℝ → ℝ} (hf : ∀ h, 0 < h → f h = num (g h)) {S : ℝ} (hS : 0 < S) (h : ℝ) :
    RGWEdge.Doubling f D K S h ↔ RGW.Doubling g D K S h := by
  have key : ∀ x, 0 < x → ((Fl.lt 0 (RGWEdge.gap f D K x) ∧ x < RGW.big) ↔ (g x - x - D + K > 0 ∧ x < RGW.big)) := by
    intro x hx
    rw [edge_gap (hf x hx), Fl.zero_eq, Fl.lt_num]
  constructor
  · intro H
    induction H with
    | stop hc => exact .stop (fun k => hc ((key _ hS).2 k))
    | step hc _ ih => exact .step ((key _ hS).1 hc) (ih (by positivity))
  · intro H
    induction H with
    | stop hc => exact .stop (fun k => hc ((key _ hS).1 k))
    | step hc _ ih => exact .step ((key _ hS).2 hc) (ih (by positivity))

theorem edge_bisection_iff {f : ℝ → Fl} {g : ℝ → ℝ} (hf : ∀ h, 0 < h → f h = num (g h)) (s s' : ℝ × ℝ × ℝ)
    (h0 : 0 ≤ s.1 ∧ 0 < s.2.1 ∧ 0 < s.2.2) : RGWEdge.Bisection f D K s s' ↔ RGW.Bisection g D K s s' := by
  have key : ∀ s : ℝ × ℝ × ℝ, 0 < s.2.2 →
      ((Fl.lt (num RGW.eps) (Fl.abs (RGWEdge.gap f D K s.2.2)) ∧ s.2.1 - s.1 > RGW.eps) ↔
        (|g s.2.2 - s.2.2 - D + K| > RGW.eps ∧ s.2.1 - s.1 > RGW.eps)) := by
    intro s hs
    rw [edge_gap (hf _ hs), Fl.num_abs, Fl.lt_num]
  have hstep : ∀ s : ℝ × ℝ × ℝ, 0 < s.2.2 → RGWEdge.bisectStep f D K s = RGW.bisectStep g D K s := by
    intro s hs
    have : Fl.lt (RGWEdge.gap f D K s.2.2) 0 ↔ g s.2.2 - s.2.2 - D + K < 0 := by
      rw [edge_gap (hf _ hs), Fl.zero_eq, Fl.lt_num]
    simp only [RGWEdge.bisectStep, RGW.bisectStep]
    by_cases h : g s.2.2 - s.2.2 - D + K < 0
    · rw [if_pos h, if_pos h, if_pos (this.2 h), if_pos (this.2 h)]
    · rw [if_neg h, if_neg h, if_neg (mt this.1 h), if_neg (mt this.1 h)]
  have hinv : ∀ s : ℝ × ℝ × ℝ, (0 ≤ s.1 ∧ 0 < s.2.1 ∧ 0 < s.2.2) →
      (0 ≤ (RGW.bisectStep g D K s).1 ∧ 0 < (RGW.bisectStep g D K s).2.1 ∧ 0 < (RGW.bisectStep g D K s).2.2) := by
    rintro ⟨lo, hi, I⟩ ⟨h1, h2, h3⟩
    simp only [RGW.bisectStep] at *
    split_ifs
    · exact ⟨h1, h3, by positivity⟩
    · exact ⟨h3.le, h2, by positivity⟩
  constructor
  · intro H
    induction H with
    | stop hc => exact .stop (fun k => hc ((key _ h0.2.2).2 k))
    | step hc _ ih =>
      rw [hstep _ h0.2.2] at ih
      exact .step ((key _ h0.2.2).1 hc) (ih (hinv _ h0))
  · intro H
    induction H with
    | stop hc => exact .stop (fun k => hc ((key _ h0.2.2).1 k))
    | step hc _ ih =>
      have := ih (hinv _ h0)
      rw [← hstep _ h0.2.2] at this
      exact .step ((key _ h0.2.2).2 hc) this

theorem edge_search_iff {f : ℝ → Fl} {g : ℝ → ℝ} (hf : ∀ h, 0 < h → f h = num (g h)) {S : ℝ} (hS : 0 < S)
    (y : Except PyErr ℝ) : RGWEdge.Search f S D K y ↔ RGW.Search g S D K y := by
  constructor
  · rintro (⟨hd, hb⟩ | ⟨hd, hb, hs⟩)
    · exact .tooHigh ((edge_doubling_iff hf hS _).1 hd) hb
    · have hd' := (edge_doubling_iff hf hS _).1 hd
      have h0 := Loop.inv (P := fun h => 0 < h) (fun s hs _ => by simpa using hs) hd hS
      exact .found hd' hb ((edge_bisection_iff hf _ _ ⟨le_rfl, h0, show 0 < _ by simp only; positivity⟩).1 hs)
  · rintro (⟨hd, hb⟩ | ⟨hd, hb, hs⟩)
    · exact .tooHigh ((edge_doubling_iff hf hS _).2 hd) hb
    · have hd' := (edge_doubling_iff hf hS _).2 hd
      have h0 := Loop.inv (P := fun h => 0 < h) (fun s hs _ => by simpa using hs) hd hS
      exact .found hd' hb ((edge_bisection_iff hf _ _ ⟨le_rfl, h0, show 0 < _ by simp only; positivity⟩).2 hs)

theorem edge_d {x y T : ℝ} (hx : 0 < x) (hy : 0 < y) (hT : 0 < T) (hσ : 0 < σ) :
    RGWEdge.d x y r T σ = num ((log (x / y) + (r + σ ^ 2 / 2) * T) / (σ * √T)) ∧
    RGWEdge.d' x y r T σ = num ((log (x / y) + (r + σ ^ 2 / 2) * T) / (σ * √T) - σ * √T) := by
  have h : σ * √T ≠ 0 := by have := sqrt_pos.2 hT; positivity
  have e : RGWEdge.d x y r T σ = num ((log (x / y) + (r + σ ^ 2 / 2) * T) / (σ * √T)) := by
    simp only [RGWEdge.d, Fl.num_div _ hy.ne', Fl.num_log (div_pos hx hy), Fl.two_eq, Fl.num_pow,
      Fl.num_div _ (two_ne_zero : (2 : ℝ) ≠ 0), Fl.num_add, Fl.num_mul, Fl.num_sqrt hT.le, Fl.num_div _ h]
  refine ⟨e, ?_⟩
  rw [RGWEdge.d', e, Fl.num_sqrt hT.le, Fl.num_mul, Fl.num_sub]

theorem edge_rho (ht : 0 < t) (h0 : 0 ≤ td) : -Fl.sqrt (num td / num t) = num (-√(td / t)) := by
  rw [Fl.num_div _ ht.ne', Fl.num_sqrt (by positivity), Fl.num_neg]

/-- The price at a given critical price is that of the real model for a dividend paid until expiry. -/
theorem edge_finish {I : ℝ} (hx : 0 < S - D * exp (-r * td)) (hK : 0 < K) (h0 : 0 < td) (h1 : td ≤ t) (hσ : 0 < σ) (hI : 0 < I) :
    ∃ v, RGWEdge.finish S K t td r D σ I = .ok (num v) ∧ RGW.finish ⟨S, K, t, td, r, D, some σ⟩ σ I = .ok v := by
  have ht : 0 < t := h0.trans_le h1
  have hρ : |-√(td / t)| ≤ 1 := by
    rw [abs_neg, abs_of_nonneg (sqrt_nonneg _)]
    exact sqrt_le_one.2 ((div_le_one ht).2 h1)
  simp only [RGWEdge.finish, RGW.finish, (edge_d hx hK ht hσ).1, (edge_d hx hK ht hσ).2, (edge_d hx hI h0 hσ).1,
    (edge_d hx hI h0 hσ).2, edge_rho ht h0.le, Fl.num_neg, RGWEdge.CBND_agrees 4 hρ (CBND_eq 1 _ _ _), CBND_eq 1,
    RGWEdge.combine, RGW.numOf]
  refine ⟨_, ?_, rfl⟩
  simp only [Fl.num_mul, Fl.num_add, Fl.num_sub, Fl.CND_num]

end inside

/-- **C134, the part that holds.** Before expiry and for a dividend below the spot, `call()` computes exactly what the real
model of `Model/American` describes: the same searches, the same branches, the same number. -/
theorem C134_agrees {S K t td r D σ : ℝ} (hS : 0 < S) (hK : 0 < K) (h0 : 0 < td) (h1 : td < t) (hσ : 0 < σ)
    (hx : 0 < S - D * exp (-r * td)) (x : Except PyErr Fl) :
    RGWEdge.Call S K t td r D σ x ↔ ∃ y, RGW.Call ⟨S, K, t, td, r, D, some σ⟩ y ∧ x = y.map num := by
  have ht : 0 < t := h0.trans h1
  by_cases h : D ≤ K * (1 - exp (-r * (t - td)))
  · simp only [RGWEdge.Call, RGW.Call, if_pos h, gbsCallNum_eq, fl_call hK ht hσ hx]
    constructor
    · rintro rfl; exact ⟨_, rfl, rfl⟩
    · rintro ⟨_, rfl, rfl⟩; rfl
  · simp only [RGWEdge.Call, RGW.Call, if_neg h]
    have hf : ∀ s, 0 < s → RGWEdge.ci K t td r σ s = num (gbsCallNum s K (t - td) r r σ) :=
      fun s hs => fl_call hK (by linarith) hσ hs
    constructor
    · rintro ⟨y, hy, rfl⟩
      have hy' := (edge_search_iff hf hS y).1 hy
      cases y with
      | error e => exact ⟨_, ⟨_, hy', rfl⟩, rfl⟩
      | ok I =>
        obtain ⟨v, e1, e2⟩ := edge_finish hx hK h0 h1.le hσ (edge_search_pos hS hy)
        exact ⟨.ok v, ⟨_, hy', e2.symm⟩, e1⟩
    · rintro ⟨_, ⟨y, hy', rfl⟩, rfl⟩
      have hy := (edge_search_iff hf hS y).2 hy'
      refine ⟨y, hy, ?_⟩
      cases y with
      | error e => rfl
      | ok I =>
        obtain ⟨v, e1, e2⟩ := edge_finish hx hK h0 h1.le hσ (edge_search_pos hS hy)
        show Except.map num (RGW.finish _ σ I) = RGWEdge.finish S K t td r D σ I
        rw [e1, e2]; rfl

/-! ### Outside -/

section outside
variable {S K t td r D σ : ℝ}

theorem combine_nan {Sx I : ℝ} : RGWEdge.combine Sx K t td r D σ I (.val .nan) (.val .nan) = .ok .nan := by
  simp only [RGWEdge.combine, Fl.mul_nan, Fl.add_nan, Fl.nan_sub]

theorem combine_missing {Sx I : ℝ} {o1 o2 : Out} (h : o1 = .missing ∨ o2 = .missing) :
    RGWEdge.combine Sx K t td r D σ I o1 o2 = .error .typeError := by
  rcases h with rfl | rfl
  · rfl
  · cases o1 <;> rfl

/-- The spot less the dividend is negative: `a1` is `nan`. -/
theorem edge_d_neg {x y T : ℝ} (hx : x < 0) (hy : 0 < y) : RGWEdge.d x y r T σ = .nan := by
  simp only [RGWEdge.d, Fl.num_div _ hy.ne', Fl.log_neg (div_neg_of_neg_of_pos hx hy), Fl.nan_add, Fl.nan_div]

theorem edge_d_zero {y T : ℝ} (hy : 0 < y) (hT : 0 < T) (hσ : 0 < σ) :
    RGWEdge.d 0 y r T σ = .ninf ∧ RGWEdge.d' 0 y r T σ = .ninf := by
  have e : RGWEdge.d 0 y r T σ = .ninf := by
    simp only [RGWEdge.d, Fl.num_div _ hy.ne', zero_div, Fl.log_zero, Fl.two_eq, Fl.num_pow,
      Fl.num_div _ (two_ne_zero : (2 : ℝ) ≠ 0), Fl.num_add, Fl.num_mul, Fl.num_sqrt hT.le]
    rw [show ∀ z : ℝ, Fl.ninf + num z = .ninf from fun _ => rfl]
    exact RGWEdge.ninf_div (mul_pos hσ (sqrt_pos.2 hT))
  exact ⟨e, by rw [RGWEdge.d', e, Fl.num_sqrt hT.le, Fl.num_mul]; rfl⟩

/-- A dividend paid today: `b1` is infinite unless the spot without dividend is the critical price. -/
theorem edge_d_today {x y : ℝ} (hx : 0 < x) (hy : 0 < y) :
    RGWEdge.d x y r 0 σ = Fl.signed (log (x / y)) ∧ RGWEdge.d' x y r 0 σ = Fl.signed (log (x / y)) := by
  have e : RGWEdge.d x y r 0 σ = Fl.signed (log (x / y)) := by
    simp only [RGWEdge.d, Fl.num_div _ hy.ne', Fl.num_log (div_pos hx hy), Fl.two_eq, Fl.num_pow,
      Fl.num_div _ (two_ne_zero : (2 : ℝ) ≠ 0), Fl.num_add, Fl.num_mul, Fl.num_sqrt le_rfl, sqrt_zero, mul_zero, add_zero]
    show Fl.mul (num _) (Fl.inv (num 0)) = _
    rw [Fl.inv, if_pos rfl, Fl.mul]
  refine ⟨e, ?_⟩
  rw [RGWEdge.d', e, Fl.num_sqrt le_rfl, sqrt_zero, Fl.num_mul, mul_zero, Fl.signed]
  split_ifs <;> rfl

theorem edge_d_today_zero {y : ℝ} (hy : 0 < y) :
    RGWEdge.d 0 y r 0 σ = .ninf ∧ RGWEdge.d' 0 y r 0 σ = .ninf := by
  have e : RGWEdge.d 0 y r 0 σ = .ninf := by
    simp only [RGWEdge.d, Fl.num_div _ hy.ne', zero_div, Fl.log_zero, Fl.two_eq, Fl.num_pow,
      Fl.num_div _ (two_ne_zero : (2 : ℝ) ≠ 0), Fl.num_add, Fl.num_mul, Fl.num_sqrt le_rfl, sqrt_zero, mul_zero]
    show Fl.mul .ninf (Fl.inv (num 0)) = _
    rw [Fl.inv, if_pos rfl]; rfl
  exact ⟨e, by rw [RGWEdge.d', e, Fl.num_sqrt le_rfl, sqrt_zero, Fl.num_mul, mul_zero]; rfl⟩

theorem finish_nan_fst {I : ℝ} (h : RGWEdge.d (S - D * exp (-r * td)) K r t σ = .nan) :
    RGWEdge.finish S K t td r D σ I = .error .typeError := by
  simp only [RGWEdge.finish, h]
  exact combine_missing (.inl (RGWEdge.CBND_nan 3 (.inl rfl)))

/-- A dividend of the past: `TypeError`. -/
theorem finish_past {I : ℝ} (ht : 0 < t) (h : td < 0) : RGWEdge.finish S K t td r D σ I = .error .typeError := by
  simp only [RGWEdge.finish]
  refine combine_missing (.inl (RGWEdge.CBND_nan 3 (.inr (.inr ?_))))
  rw [Fl.num_div _ ht.ne', Fl.sqrt_neg (div_neg_of_neg_of_pos h ht)]; rfl

/-- A dividend that exceeds the spot: `TypeError`. -/
theorem finish_negative {I : ℝ} (hK : 0 < K) (h : S - D * exp (-r * td) < 0) :
    RGWEdge.finish S K t td r D σ I = .error .typeError := finish_nan_fst (edge_d_neg h hK)

/-- A dividend equal to the spot: `TypeError`. -/
theorem finish_worthless {I : ℝ} (hK : 0 < K) (ht : 0 < t) (htd : 0 < td) (hσ : 0 < σ) (hI : 0 < I)
    (h : S - D * exp (-r * td) = 0) : RGWEdge.finish S K t td r D σ I = .error .typeError := by
  simp only [RGWEdge.finish, h, (edge_d_zero hK ht hσ).1, (edge_d_zero hI htd hσ).1, edge_rho ht htd.le]
  exact combine_missing (.inl (RGWEdge.CBND_inf 2 (by have := sqrt_pos.2 (div_pos htd ht); linarith)))

/-- A dividend paid today: `nan`, or `TypeError` if the remaining spot is the critical price. -/
theorem finish_today {I : ℝ} (hK : 0 < K) (ht : 0 < t) (hσ : 0 < σ) (hI : 0 < I) (hx : 0 < S - D) :
    RGWEdge.finish S K t 0 r D σ I = if S - D = I then .error .typeError else .ok .nan := by
  have e0 : S - D * exp (-r * 0) = S - D := by simp
  have hr : -Fl.sqrt (num 0 / num t) = num 0 := by rw [edge_rho ht le_rfl]; simp
  simp only [RGWEdge.finish, e0, (edge_d hx hK ht hσ).1, (edge_d hx hK ht hσ).2, (edge_d_today hx hI).1,
    (edge_d_today hx hI).2, hr]
  by_cases h : S - D = I
  · rw [if_pos h, h, div_self hI.ne', log_one]
    refine combine_missing (.inl (RGWEdge.CBND_nan 3 (.inr (.inl ?_))))
    simp [Fl.signed, Fl.neg_nan]
  · rw [if_neg h]
    have hl : log ((S - D) / I) ≠ 0 := by
      rw [Ne, log_eq_zero]
      have := div_pos hx hI
      push Not
      refine ⟨this.ne', fun k => h ?_, by linarith⟩
      rwa [div_eq_one_iff_eq hI.ne'] at k
    have hb : -Fl.signed (log ((S - D) / I)) = .pinf ∨ -Fl.signed (log ((S - D) / I)) = .ninf := by
      rcases lt_or_gt_of_ne hl with k | k
      · left; rw [Fl.signed, if_neg k.not_gt, if_pos k]; rfl
      · right; rw [Fl.signed, if_pos k]; rfl
    rw [RGWEdge.CBND_zero 2 (by exact Fl.noConfusion) hb, RGWEdge.CBND_zero 2 (by exact Fl.noConfusion) hb, combine_nan]

theorem finish_today_worthless {I : ℝ} (hK : 0 < K) (ht : 0 < t) (hσ : 0 < σ) (hI : 0 < I) (hx : S - D = 0) :
    RGWEdge.finish S K t 0 r D σ I = .ok .nan := by
  have e0 : S - D * exp (-r * 0) = 0 := by simp [hx]
  have hr : -Fl.sqrt (num 0 / num t) = num 0 := by rw [edge_rho ht le_rfl]; simp
  simp only [RGWEdge.finish, e0, (edge_d_zero hK ht hσ).1, (edge_d_zero hK ht hσ).2, (edge_d_today_zero hI).1,
    (edge_d_today_zero hI).2, hr, neg_ninf]
  rw [RGWEdge.CBND_zero 2 (by exact Fl.noConfusion) (.inl rfl), combine_nan]

/-- The correlation term of the price is undefined: a negative "variance" of `a - b`. -/
def NoSpread (ρ a b : ℝ) : Prop := a * b < 0 ∧ a ^ 2 - 2 * ρ * a * b + b ^ 2 < 0

open Classical in
/-- A dividend paid after expiry. -/
theorem finish_late {I : ℝ} (hK : 0 < K) (ht : 0 < t) (htd : t < td) (hσ : 0 < σ) (hI : 0 < I) {x : ℝ}
    (he : x = S - D * exp (-r * td)) (hx : 0 < x) :
    RGWEdge.finish S K t td r D σ I =
      if NoSpread (-√(td / t)) ((log (x / K) + (r + σ ^ 2 / 2) * t) / (σ * √t))
            (-((log (x / I) + (r + σ ^ 2 / 2) * td) / (σ * √td))) ∨
          NoSpread (-√(td / t)) ((log (x / K) + (r + σ ^ 2 / 2) * t) / (σ * √t) - σ * √t)
            (-((log (x / I) + (r + σ ^ 2 / 2) * td) / (σ * √td) - σ * √td))
      then .error .typeError else .ok .nan := by
  have h0 : 0 < td := ht.trans htd
  have hρ : -√(td / t) < -1 := by
    have : 1 < √(td / t) := by rw [lt_sqrt zero_le_one]; rw [one_pow, one_lt_div ht]; exact htd
    linarith
  simp only [RGWEdge.finish, ← he, (edge_d hx hK ht hσ).1, (edge_d hx hK ht hσ).2, (edge_d hx hI h0 hσ).1,
    (edge_d hx hI h0 hσ).2, edge_rho ht h0.le, Fl.num_neg, RGWEdge.CBND_low 1 hρ]
  unfold NoSpread
  split_ifs with h1 h2 h3 h4 h5 h6
  all_goals first
    | exact combine_nan
    | exact combine_missing (.inl rfl)
    | exact combine_missing (.inr rfl)
    | (exfalso; tauto)

end outside

/-- The only outcome of `call()` outside `0 < td ≤ t`, `D e^{-r td} < S` is `nan` or an exception. -/
theorem C134_outside_fails {S K t td r D σ : ℝ} (hS : 0 < S) (hK : 0 < K) (ht : 0 < t) (hσ : 0 < σ)
    (hD : K * (1 - exp (-r * (t - td))) < D) (h : ¬ (0 < td ∧ td ≤ t ∧ 0 < S - D * exp (-r * td))) {x : Except PyErr Fl}
    (hx : RGWEdge.Call S K t td r D σ x) : (∃ e, x = .error e) ∨ x = .ok .nan := by
  rw [RGWEdge.Call, if_neg (not_le.2 hD)] at hx
  obtain ⟨y, hy, rfl⟩ := hx
  cases y with
  | error e => exact .inl ⟨e, rfl⟩
  | ok I =>
    have hI := edge_search_pos hS hy
    show (∃ e, RGWEdge.finish S K t td r D σ I = _) ∨ RGWEdge.finish S K t td r D σ I = _
    rcases lt_trichotomy td 0 with h1 | h1 | h1
    · exact .inl ⟨_, finish_past ht h1⟩
    · subst h1
      rcases lt_trichotomy (S - D) 0 with h2 | h2 | h2
      · exact .inl ⟨_, finish_negative hK (by simpa using h2)⟩
      · exact .inr (finish_today_worthless hK ht hσ hI h2)
      · rw [finish_today hK ht hσ hI h2]
        split_ifs
        · exact .inl ⟨_, rfl⟩
        · exact .inr rfl
    · rcases lt_trichotomy (S - D * exp (-r * td)) 0 with h2 | h2 | h2
      · exact .inl ⟨_, finish_negative hK h2⟩
      · exact .inl ⟨_, finish_worthless hK ht h1 hσ hI h2⟩
      · have h3 : t < td := by
          by_contra hc; exact h ⟨h1, not_lt.1 hc, h2⟩
        rw [finish_late hK ht h3 hσ hI rfl h2]
        split_ifs
        · exact .inl ⟨_, rfl⟩
        · exact .inr rfl

/-- **C134, when the price is a number.** With early exercise in question (`D > K (1 - e^{-r (t - td)})`) `call()` has exactly
one outcome; unless the search gives up with `ValueError`, it is a number if and only if the dividend is paid after today and
not after expiry and is worth less than the spot. -/
theorem C134_number_iff {S K t td r D σ : ℝ} (hS : 0 < S) (hK : 0 < K) (ht : 0 < t) (hσ : 0 < σ)
    (hD : K * (1 - exp (-r * (t - td))) < D) :
    ∃ x, (∀ x', RGWEdge.Call S K t td r D σ x' ↔ x' = x) ∧ (x ≠ .error .valueError →
      ((∃ v, x = .ok (num v)) ↔ 0 < td ∧ td ≤ t ∧ D * exp (-r * td) < S)) := by
  obtain ⟨x, hx, hu⟩ := edge_call_exists K t td r D σ hS
  refine ⟨x, fun x' => ⟨hu x', fun e => e ▸ hx⟩, fun hne => ⟨?_, ?_⟩⟩
  · rintro ⟨v, rfl⟩
    by_contra hc
    rcases C134_outside_fails hS hK ht hσ hD (by rw [sub_pos]; exact hc) hx with ⟨e, k⟩ | k
    · cases k
    · cases k
  · rintro ⟨h0, h1, h2⟩
    rw [RGWEdge.Call, if_neg (not_le.2 hD)] at hx
    obtain ⟨y, hy, rfl⟩ := hx
    cases y with
    | error e =>
      exfalso
      rcases hy with ⟨_, _⟩ | _
      exact hne rfl
    | ok I =>
      obtain ⟨v, e1, -⟩ := edge_finish (sub_pos.2 h2) hK h0 h1 hσ (edge_search_pos hS hy)
      exact ⟨v, e1⟩

/-- The search after expiry: the European price is `nan`, so both loops end at once. -/
theorem search_late {S K t td r D σ : ℝ} (hb : S ≤ 100000000) (h : t < td) :
    RGWEdge.Search (RGWEdge.ci K t td r σ) S D K (.ok (S * 0.5)) := by
  have hf : ∀ s, RGWEdge.ci K t td r σ s = .nan := by
    intro s
    have e : Fl.sqrt (num (t - td)) = .nan := Fl.sqrt_neg (by linarith)
    simp only [RGWEdge.ci, Fl.gbsCall, Fl.gbsD1, e, Fl.mul_nan, Fl.div_nan, Fl.CND_nan, Fl.nan_sub]
  have hg : ∀ s, RGWEdge.gap (RGWEdge.ci K t td r σ) D K s = .nan := by
    intro s; simp only [RGWEdge.gap, hf, Fl.nan_sub, Fl.nan_add]
  have hd : RGWEdge.Doubling (RGWEdge.ci K t td r σ) D K S S := .stop fun k => by
    rw [hg] at k; exact Fl.not_lt_nan _ k.1
  have hs : RGWEdge.Bisection (RGWEdge.ci K t td r σ) D K (0, S, S * 0.5) (0, S, S * 0.5) := .stop fun k => by
    simp only [hg, Fl.abs_nan] at k; exact Fl.not_lt_nan _ k.1
  exact .found hd (not_lt.2 hb) hs

open Classical in
/-- **C134, negated for a dividend after expiry.** The option expires before the dividend, so it is worth a European call on
the spot, which `GBSOption` prices.  `call()` instead takes half the spot for the critical price and a correlation below `-1`:
it returns `nan`, or raises `TypeError` where the bivariate distribution function returns `None`. -/
theorem C134_after_expiry_fails {S K t td r D σ : ℝ} (hS : 0 < S) (hb : S ≤ 100000000) (hK : 0 < K) (ht : 0 < t) (htd : t < td)
    (hσ : 0 < σ) (hD : K * (1 - exp (-r * (t - td))) < D) (hx : 0 < S - D * exp (-r * td)) {a b x : ℝ}
    (hxe : x = S - D * exp (-r * td)) (ha : a = (log (x / K) + (r + σ ^ 2 / 2) * t) / (σ * √t))
    (hbe : b = (log (x / (S / 2)) + (r + σ ^ 2 / 2) * td) / (σ * √td)) :
    Fl.gbsCall (num S) (num K) (num t) (num r) (num r) (num σ) = num (gbsCallNum S K t r r σ) ∧
    ∀ y, RGWEdge.Call S K t td r D σ y ↔
      y = if NoSpread (-√(td / t)) a (-b) ∨ NoSpread (-√(td / t)) (a - σ * √t) (-(b - σ * √td))
        then .error .typeError else .ok .nan := by
  refine ⟨fl_call hK ht hσ hS, fun y => ?_⟩
  have hs := search_late (K := K) (r := r) (D := D) (σ := σ) hb htd
  have hf := finish_late (S := S) (r := r) (D := D) (I := S * 0.5) hK ht htd hσ (by positivity) hxe (hxe ▸ hx)
  rw [show S * 0.5 = S / 2 by ring, ← ha, ← hbe] at hf
  rw [RGWEdge.Call, if_neg (not_le.2 hD)]
  constructor
  · rintro ⟨z, hz, rfl⟩
    rw [edge_search_det hz hs]
    show RGWEdge.finish S K t td r D σ (S * 0.5) = _
    rw [show S * 0.5 = S / 2 by ring, hf]
  · rintro rfl
    refine ⟨_, hs, ?_⟩
    show _ = RGWEdge.finish S K t td r D σ (S * 0.5)
    rw [show S * 0.5 = S / 2 by ring, hf]

/-- **C134, negated for a dividend paid today.** Once the search has found a critical price, the price is `nan`, or
`TypeError` if the spot less the dividend is exactly that critical price. -/
theorem C134_today_fails {S K t r D σ : ℝ} (hS : 0 < S) (hK : 0 < K) (ht : 0 < t) (hσ : 0 < σ)
    (hD : K * (1 - exp (-r * t)) < D) (hx : D < S) (y : Except PyErr Fl) :
    RGWEdge.Call S K t 0 r D σ y ↔
      (RGW.Search (fun s => gbsCallNum s K t r r σ) S D K (.error .valueError) ∧ y = .error .valueError) ∨
      ∃ I, RGW.Search (fun s => gbsCallNum s K t r r σ) S D K (.ok I) ∧
        y = if S - D = I then .error .typeError else .ok .nan := by
  have hf : ∀ s, 0 < s → RGWEdge.ci K t 0 r σ s = num (gbsCallNum s K t r r σ) := by
    intro s hs
    rw [RGWEdge.ci, sub_zero]; exact fl_call hK ht hσ hs
  rw [RGWEdge.Call, if_neg (by rw [sub_zero]; exact not_le.2 hD)]
  constructor
  · rintro ⟨z, hz, rfl⟩
    have hz' := (edge_search_iff hf hS z).1 hz
    cases z with
    | error e =>
      left
      rcases hz with ⟨_, _⟩ | _
      exact ⟨hz', rfl⟩
    | ok I => exact .inr ⟨I, hz', finish_today hK ht hσ (edge_search_pos hS hz) (sub_pos.2 hx)⟩
  · rintro (⟨hz, rfl⟩ | ⟨I, hz, rfl⟩)
    · exact ⟨_, (edge_search_iff hf hS _).2 hz, rfl⟩
    · have hz' := (edge_search_iff hf hS _).2 hz
      exact ⟨_, hz', (finish_today hK ht hσ (edge_search_pos hS hz') (sub_pos.2 hx)).symm⟩

/-- **C134, negated for a dividend of the past** (`td < 0`): an exception, whatever the search does. -/
theorem C134_past_fails {S K t td r D σ : ℝ} (hS : 0 < S) (ht : 0 < t) (htd : td < 0)
    (hD : K * (1 - exp (-r * (t - td))) < D) : ∃ y, RGWEdge.Call S K t td r D σ y ∧
      (y = .error .valueError ∨ y = .error .typeError) := by
  obtain ⟨y, hy, -⟩ := edge_call_exists K t td r D σ hS
  refine ⟨y, hy, ?_⟩
  rw [RGWEdge.Call, if_neg (not_le.2 hD)] at hy
  obtain ⟨z, hz, rfl⟩ := hy
  cases z with
  | error e =>
    rcases hz with ⟨_, _⟩ | _
    exact .inl rfl
  | ok I => exact .inr (finish_past ht htd)

/-- **C134, negated for a dividend worth at least the spot** (`S ≤ D e^{-r td}`): an exception, although the holder can
exercise. -/
theorem C134_large_dividend_fails {S K t td r D σ : ℝ} (hS : 0 < S) (hK : 0 < K) (ht : 0 < t) (htd : 0 < td) (hσ : 0 < σ)
    (hD : K * (1 - exp (-r * (t - td))) < D) (hx : S ≤ D * exp (-r * td)) : ∃ y, RGWEdge.Call S K t td r D σ y ∧
      (y = .error .valueError ∨ y = .error .typeError) := by
  obtain ⟨y, hy, -⟩ := edge_call_exists K t td r D σ hS
  refine ⟨y, hy, ?_⟩
  rw [RGWEdge.Call, if_neg (not_le.2 hD)] at hy
  obtain ⟨z, hz, rfl⟩ := hy
  cases z with
  | error e =>
    rcases hz with ⟨_, _⟩ | _
    exact .inl rfl
  | ok I =>
    right
    rcases hx.lt_or_eq with h | h
    · exact finish_negative hK (sub_neg.2 h)
    · exact finish_worthless hK ht htd hσ (edge_search_pos hS hz) (sub_eq_zero.2 h)

/-- **C134, without early exercise** (`D ≤ K (1 - e^{-r (t - td)})`): the European price at the spot less the dividend; zero if
the dividend takes all of the spot, `nan` if it takes more. -/
theorem C134_european {S K t td r D σ : ℝ} (hK : 0 < K) (ht : 0 < t) (hσ : 0 < σ)
    (hD : D ≤ K * (1 - exp (-r * (t - td)))) (y : Except PyErr Fl) :
    RGWEdge.Call S K t td r D σ y ↔ y = .ok (
      if S < D * exp (-r * td) then .nan else if S = D * exp (-r * td) then num 0
      else num (gbsCallNum (S - D * exp (-r * td)) K t r r σ)) := by
  rw [RGWEdge.Call, if_pos hD]
  rcases lt_trichotomy S (D * exp (-r * td)) with h | h | h
  · rw [if_pos h]
    simp only [Fl.gbsCall, (fl_d1_neg (t := t) (b := r) (σ := σ) hK (sub_neg.2 h)).2, Fl.CND_nan, Fl.mul_nan, Fl.nan_sub]
  · rw [if_neg h.not_lt, if_pos h, h, sub_self]
    have e : Fl.gbsD1 (num 0) (num K) (num t) (num r) (num σ) = .ninf := by
      simp only [Fl.gbsD1, Fl.num_div _ hK.ne', zero_div, Fl.log_zero, Fl.two_eq,
        Fl.num_div _ (two_ne_zero : (2 : ℝ) ≠ 0), Fl.num_add, Fl.num_mul, Fl.num_sqrt ht.le]
      rw [show ∀ z : ℝ, Fl.ninf + num z = .ninf from fun _ => rfl]
      exact RGWEdge.ninf_div (mul_pos hσ (sqrt_pos.2 ht))
    simp only [Fl.gbsCall, e, Fl.num_sqrt ht.le, Fl.num_mul, Fl.num_sub, Fl.num_neg, Fl.num_exp, ninf_sub_num, Fl.CND_ninf,
      mul_zero, sub_zero]
  · rw [if_neg h.not_gt, if_neg h.ne', fl_call hK ht hσ (sub_pos.2 h)]

/-- Example for C134: an option on a spot of 100 with strike 50 and one year to run, at a rate of zero, and a dividend of 50 in
four years, after expiry. `call()` raises `TypeError`; with a strike of `50 e^{4 σ²}` it returns `nan`. -/
theorem C134_example : (∀ y, RGWEdge.Call 100 50 1 4 0 50 (1 / 5) y ↔ y = .error .typeError) ∧
    (∀ y, RGWEdge.Call 100 (50 * exp (4 * (1 / 5) ^ 2)) 1 4 0 50 (1 / 5) y ↔ y = .ok .nan) ∧
    (∃ y, RGWEdge.Call 100 50 1 (1 / 2) 0 120 (1 / 5) y ∧ (y = .error .valueError ∨ y = .error .typeError)) ∧
    (∀ y, RGWEdge.Call 100 50 1 0 0 120 (1 / 5) y → (∃ e, y = .error e) ∨ y = .ok .nan) := by
  have s4 : √(4 : ℝ) = 2 := by rw [show (4 : ℝ) = 2 ^ 2 by norm_num]; exact sqrt_sq (by norm_num)
  refine ⟨fun y => ?_, fun y => ?_, C134_large_dividend_fails (by norm_num) (by norm_num) (by norm_num) (by norm_num)
    (by norm_num) (by norm_num) (by norm_num), fun y => C134_outside_fails (by norm_num) (by norm_num) (by norm_num)
    (by norm_num) (by norm_num) (by norm_num)⟩
  · rw [(C134_after_expiry_fails (S := 100) (K := 50) (t := 1) (td := 4) (r := 0) (D := 50) (σ := 1 / 5) (by norm_num)
      (by norm_num) (by norm_num) (by norm_num) (by norm_num) (by norm_num) (by norm_num) (by norm_num)
      (a := 1 / 10) (b := 1 / 5) (x := 50) (by norm_num) (by norm_num) (by norm_num [s4])).2 y, if_pos]
    left
    norm_num [NoSpread, s4]
  · have hl : log (50 / (50 * exp (4 * (1 / 5) ^ 2))) = -(4 / 25) := by
      rw [show (50 : ℝ) / (50 * exp (4 * (1 / 5) ^ 2)) = exp (-(4 / 25)) by
        rw [exp_neg]; field_simp; norm_num, log_exp]
    rw [(C134_after_expiry_fails (S := 100) (K := 50 * exp (4 * (1 / 5) ^ 2)) (t := 1) (td := 4) (r := 0) (D := 50) (σ := 1 / 5)
      (by norm_num) (by norm_num) (by positivity) (by norm_num) (by norm_num) (by norm_num) (by norm_num) (by norm_num)
      (a := -(7 / 10)) (b := 1 / 5) (x := 50) (by norm_num) (by rw [hl]; norm_num) (by norm_num [s4])).2 y, if_neg]
    norm_num [NoSpread, s4]

end Verif.Props
