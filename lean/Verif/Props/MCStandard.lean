import Verif.Props.MCVariance
import Verif.Props.ImpliedVol
import Verif.Lemmas.RGWValue
import Mathlib.Probability.Moments.IntegrableExpMul
import Mathlib.MeasureTheory.Integral.Pi

/-!
C84: Monte Carlo estimates from standardised innovations: consistent, but not unbiased.
-/
namespace Verif.Props
open Verif Verif.Spec Real MeasureTheory ProbabilityTheory Filter
open scoped Topology ENNReal

/-! ### Change of the payoff under a small change of the innovations -/

theorem abs_exp_sub_exp_le (u v : ℝ) : |exp u - exp v| ≤ |u - v| * exp (max u v) := by
  have key : ∀ a b : ℝ, a ≤ b → |exp b - exp a| ≤ |b - a| * exp b := by
    intro a b h
    rw [abs_of_nonneg (sub_nonneg.2 (exp_le_exp.2 h)), abs_of_nonneg (sub_nonneg.2 h)]
    have h1 := add_one_le_exp (a - b)
    have h2 : exp a = exp (a - b) * exp b := by rw [← exp_add]; congr 1; ring
    rw [h2]
    nlinarith [exp_pos b]
  rcases le_total u v with h | h
  · rw [max_eq_right h, abs_sub_comm, abs_sub_comm u v]; exact key u v h
  · rw [max_eq_left h]; exact key v u h

/-- The dominating function. -/
noncomputable def mcDom {n : ℕ} (c : ℝ) (w : Fin n → ℝ) : ℝ := exp (c * ∑ m, |w m|)

theorem integrable_mcDom (n : ℕ) (c : ℝ) : Integrable (fun w : Fin n → ℝ => mcDom c w) (stdNormal n) := by
  have h1 : Integrable (fun x : ℝ => exp (c * |x|)) (gaussianReal 0 1) :=
    integrable_exp_mul_abs (X := id) (integrable_exp_mul_gaussianReal c) (integrable_exp_mul_gaussianReal (-c))
  have := Integrable.fintype_prod (μ := fun _ : Fin n => gaussianReal 0 1) (f := fun (_ : Fin n) (x : ℝ) => exp (c * |x|)) (fun _ => h1)
  refine this.congr (ae_of_all _ fun w => ?_)
  simp only [mcDom, Finset.mul_sum, exp_sum]

theorem exp_perturb {n : ℕ} (s : Finset (Fin n)) (a A c : ℝ) (hA : a ≤ A) {w w' : Fin n → ℝ} {δ : ℝ} (h0 : 0 ≤ δ)
    (h1 : δ ≤ 1) (h : ∀ m, |w' m - w m| ≤ δ * (1 + |w m|)) :
    |exp (a + c * ∑ m ∈ s, w' m) - exp (a + c * ∑ m ∈ s, w m)|
      ≤ δ * (|c| * exp (n + A + |c| * n) * mcDom (1 + 2 * |c|) w) := by
  set L := ∑ m, |w m| with hL
  have hL0 : 0 ≤ L := Finset.sum_nonneg fun _ _ => abs_nonneg _
  have d1 : |∑ m ∈ s, w' m - ∑ m ∈ s, w m| ≤ δ * (n + L) := by
    rw [← Finset.sum_sub_distrib]
    calc |∑ m ∈ s, (w' m - w m)| ≤ ∑ m ∈ s, |w' m - w m| := Finset.abs_sum_le_sum_abs _ _
      _ ≤ ∑ m, |w' m - w m| := Finset.sum_le_univ_sum_of_nonneg fun _ => abs_nonneg _
      _ ≤ ∑ m, δ * (1 + |w m|) := Finset.sum_le_sum fun m _ => h m
      _ = δ * (n + L) := by rw [← Finset.mul_sum, Finset.sum_add_distrib]; simp [hL]
  have d2 : |∑ m ∈ s, w m| ≤ L :=
    (Finset.abs_sum_le_sum_abs _ _).trans (Finset.sum_le_univ_sum_of_nonneg fun _ => abs_nonneg _)
  have hn : (0:ℝ) ≤ n := n.cast_nonneg
  have d3 : |∑ m ∈ s, w' m| ≤ n + 2 * L := by
    have : |∑ m ∈ s, w' m| ≤ |∑ m ∈ s, w' m - ∑ m ∈ s, w m| + |∑ m ∈ s, w m| := by
      have := abs_add_le (∑ m ∈ s, w' m - ∑ m ∈ s, w m) (∑ m ∈ s, w m)
      rwa [sub_add_cancel] at this
    have : δ * (n + L) ≤ 1 * (n + L) := by gcongr
    linarith
  have hmax : max (a + c * ∑ m ∈ s, w' m) (a + c * ∑ m ∈ s, w m) ≤ A + |c| * (n + 2 * L) := by
    refine max_le ?_ ?_
    · have : c * ∑ m ∈ s, w' m ≤ |c| * (n + 2 * L) :=
        (le_abs_self _).trans (by rw [abs_mul]; exact mul_le_mul_of_nonneg_left d3 (abs_nonneg c))
      linarith
    · have : c * ∑ m ∈ s, w m ≤ |c| * (n + 2 * L) :=
        (le_abs_self _).trans (by rw [abs_mul]; exact mul_le_mul_of_nonneg_left (by linarith) (abs_nonneg c))
      linarith
  have hlin : (n : ℝ) + L ≤ exp (n + L) := by linarith [add_one_le_exp ((n : ℝ) + L)]
  calc |exp (a + c * ∑ m ∈ s, w' m) - exp (a + c * ∑ m ∈ s, w m)|
      ≤ |(a + c * ∑ m ∈ s, w' m) - (a + c * ∑ m ∈ s, w m)| * exp (max (a + c * ∑ m ∈ s, w' m) (a + c * ∑ m ∈ s, w m)) :=
        abs_exp_sub_exp_le _ _
    _ ≤ (|c| * (δ * exp (n + L))) * exp (A + |c| * (n + 2 * L)) := by
        gcongr
        calc |(a + c * ∑ m ∈ s, w' m) - (a + c * ∑ m ∈ s, w m)| = |c| * |∑ m ∈ s, w' m - ∑ m ∈ s, w m| := by
              rw [← abs_mul]; congr 1; ring
          _ ≤ |c| * (δ * (n + L)) := by gcongr
          _ ≤ _ := by gcongr
    _ = δ * (|c| * exp (n + A + |c| * n) * mcDom (1 + 2 * |c|) w) := by
        rw [mcDom, ← hL]
        have : exp (n + L) * exp (A + |c| * (n + 2 * L)) = exp (n + A + |c| * n) * exp ((1 + 2 * |c|) * L) := by
          rw [← exp_add, ← exp_add]; congr 1; ring
        linear_combination |c| * δ * this

theorem mcPrice_perturb (k : MC.Kind) {n : ℕ} (hn : 0 < n) (S t b σ : ℝ) (ht : 0 ≤ t) :
    ∃ C, 0 ≤ C ∧ ∀ (w w' : Fin n → ℝ) (δ : ℝ), 0 ≤ δ → δ ≤ 1 → (∀ m, |w' m - w m| ≤ δ * (1 + |w m|)) →
      |mcPrice k S t b σ w' - mcPrice k S t b σ w| ≤ δ * (C * mcDom (1 + 2 * |σ * √(t / n)|) w) := by
  set c := σ * √(t / n) with hc
  set A := |b - σ ^ 2 / 2| * t with hA
  have hn' : (0:ℝ) < n := by exact_mod_cast hn
  refine ⟨|S| * (|c| * exp (n + A + |c| * n)), by positivity, fun w w' δ h0 h1 h => ?_⟩
  cases k with
  | vanilla =>
    have hle : (b - σ ^ 2 / 2) * t ≤ A := mul_le_mul_of_nonneg_right (le_abs_self _) ht
    have := exp_perturb Finset.univ _ _ c hle h0 h1 h
    simp only [mcPrice, pathEnd, ← mul_sub, abs_mul S]
    calc _ ≤ |S| * _ := mul_le_mul_of_nonneg_left this (abs_nonneg S)
      _ = _ := by ring
  | asian =>
    have hj : ∀ j : Fin n, |S * exp (logPrice t b σ w' j) - S * exp (logPrice t b σ w j)|
        ≤ δ * (|S| * (|c| * exp (n + A + |c| * n)) * mcDom (1 + 2 * |c|) w) := by
      intro j
      have hle : (b - σ ^ 2 / 2) * (t * ((j : ℝ) + 1) / n) ≤ A := by
        have hj1 : ((j : ℝ) + 1) ≤ n := by exact_mod_cast j.2
        have : t * ((j : ℝ) + 1) / n ≤ t := by
          rw [div_le_iff₀ hn']; exact mul_le_mul_of_nonneg_left hj1 ht
        have h0 : 0 ≤ t * ((j : ℝ) + 1) / n := by positivity
        exact (mul_le_mul_of_nonneg_right (le_abs_self _) h0).trans (mul_le_mul_of_nonneg_left this (abs_nonneg _))
      have := exp_perturb (Finset.univ.filter (· ≤ j)) _ _ c hle h0 h1 h
      simp only [logPrice, ← mul_sub, abs_mul S]
      calc _ ≤ |S| * _ := mul_le_mul_of_nonneg_left this (abs_nonneg S)
        _ = _ := by ring
    simp only [mcPrice, pathAverage]
    rw [← sub_div, ← Finset.sum_sub_distrib, abs_div, abs_of_pos hn', div_le_iff₀ hn']
    calc _ ≤ ∑ j : Fin n, δ * (|S| * (|c| * exp (n + A + |c| * n)) * mcDom (1 + 2 * |c|) w) :=
          (Finset.abs_sum_le_sum_abs _ _).trans (Finset.sum_le_sum fun j _ => hj j)
      _ = _ := by rw [Finset.sum_const, Finset.card_univ, Fintype.card_fin, nsmul_eq_mul]; ring

theorem mcPay_perturb (k : MC.Kind) (call : Bool) {n : ℕ} (hn : 0 < n) (S K t r b σ : ℝ) (ht : 0 ≤ t) :
    ∃ C c, 0 ≤ C ∧ ∀ (w w' : Fin n → ℝ) (δ : ℝ), 0 ≤ δ → δ ≤ 1 → (∀ m, |w' m - w m| ≤ δ * (1 + |w m|)) →
      |mcPay k call S K t r b σ w' - mcPay k call S K t r b σ w| ≤ δ * (C * mcDom c w) := by
  obtain ⟨C, hC, h⟩ := mcPrice_perturb k hn S t b σ ht
  have hE := exp_pos (-r * t)
  refine ⟨exp (-r * t) * C, 1 + 2 * |σ * √(t / n)|, by positivity, fun w w' δ h0 h1 hw => ?_⟩
  have := h w w' δ h0 h1 hw
  simp only [mcPay, ← mul_sub, abs_mul, abs_of_pos hE]
  have key : |(if call then max (mcPrice k S t b σ w' - K) 0 else max (K - mcPrice k S t b σ w') 0)
      - (if call then max (mcPrice k S t b σ w - K) 0 else max (K - mcPrice k S t b σ w) 0)|
      ≤ |mcPrice k S t b σ w' - mcPrice k S t b σ w| := by
    cases call
    · simp only [Bool.false_eq_true, if_false]
      refine (abs_max_sub_max_le_abs _ _ _).trans (le_of_eq ?_)
      rw [abs_sub_comm]; congr 1; ring
    · simp only [if_true]
      refine (abs_max_sub_max_le_abs _ _ _).trans (le_of_eq ?_)
      congr 1; ring
  refine (mul_le_mul_of_nonneg_left (key.trans this) hE.le).trans (le_of_eq ?_)
  simp only [abs_mul]
  ring

/-! ### Standardised rows -/

theorem sum_flatten_ofFn {p n : ℕ} (f : ℝ → ℝ) (z : Fin p → Fin n → ℝ) :
    ((List.ofFn fun j => List.ofFn (z j)).flatten.map f).sum = ∑ j, ∑ m, f (z j m) := by
  rw [List.map_flatten, List.sum_flatten, List.map_map, List.map_ofFn, List.sum_ofFn]
  refine Finset.sum_congr rfl fun j _ => ?_
  simp [Function.comp, List.map_ofFn, List.sum_ofFn]

theorem length_flatten_ofFn {p n : ℕ} (z : Fin p → Fin n → ℝ) :
    (List.ofFn fun j => List.ofFn (z j)).flatten.length = p * n := by
  rw [List.length_flatten, List.map_ofFn, List.sum_ofFn]
  simp [Function.comp]

/-- Mean and mean square of the innovations. -/
noncomputable def mcMean {p n : ℕ} (z : Fin p → Fin n → ℝ) : ℝ := (∑ j, ∑ m, z j m) / (p * n)
noncomputable def mcSq {p n : ℕ} (z : Fin p → Fin n → ℝ) : ℝ := (∑ j, ∑ m, z j m ^ 2) / (p * n)

theorem std_ofFn {p n : ℕ} (hp : 0 < p) (hn : 0 < n) (z : Fin p → Fin n → ℝ) :
    MC.mean (List.ofFn fun j => List.ofFn (z j)).flatten = mcMean z ∧
    MC.std (List.ofFn fun j => List.ofFn (z j)).flatten = √(mcSq z - mcMean z ^ 2) := by
  have hpn : ((p : ℝ) * n) ≠ 0 := by
    have : (0:ℝ) < p := by exact_mod_cast hp
    have : (0:ℝ) < n := by exact_mod_cast hn
    positivity
  have h1 : MC.mean (List.ofFn fun j => List.ofFn (z j)).flatten = mcMean z := by
    have := sum_flatten_ofFn id z
    simp only [List.map_id_fun, id] at this
    rw [MC.mean, this, length_flatten_ofFn, mcMean]
    push_cast
    rfl
  refine ⟨h1, ?_⟩
  rw [MC.std, h1, MC.mean, List.length_map, length_flatten_ofFn, sum_flatten_ofFn]
  congr 1
  have e : ∑ j, ∑ m, (z j m - mcMean z) ^ 2 = (∑ j, ∑ m, z j m ^ 2) - 2 * mcMean z * (∑ j, ∑ m, z j m) + p * n * mcMean z ^ 2 := by
    simp only [sub_sq, Finset.sum_add_distrib, Finset.sum_sub_distrib, Finset.sum_const, Finset.card_univ, Fintype.card_fin,
      nsmul_eq_mul, Finset.mul_sum]
    congr 1
    · congr 1
      refine Finset.sum_congr rfl fun j _ => Finset.sum_congr rfl fun m _ => by ring
    · ring
  have e2 : ∑ j, ∑ m, z j m = mcMean z * (p * n) := by rw [mcMean]; field_simp
  have e3 : ∑ j, ∑ m, z j m ^ 2 = mcSq z * (p * n) := by rw [mcSq]; field_simp
  rw [e, e2, e3]
  push_cast
  field_simp
  ring

/-- The innovations used by a loop with standardisation. -/
theorem prep_standard {p n : ℕ} (hp : 0 < p) (hn : 0 < n) (z : Fin p → Fin n → ℝ) :
    MC.prep false true (List.ofFn fun j => List.ofFn (z j))
      = (List.ofFn fun j => List.ofFn fun m => (z j m - mcMean z) / √(mcSq z - mcMean z ^ 2)) ∧
    MC.prep true true (List.ofFn fun j => List.ofFn (z j))
      = (List.ofFn fun j : Fin (p + p) => List.ofFn fun m => Fin.append z (fun j k => -z j k) j m / √(mcSq z)) := by
  have gen : ∀ {q : ℕ} (y : Fin q → Fin n → ℝ), 0 < q → MC.standardize (List.ofFn fun j => List.ofFn (y j))
      = List.ofFn fun j => List.ofFn fun m => (y j m - mcMean y) / √(mcSq y - mcMean y ^ 2) := by
    intro q y hq
    rw [MC.standardize, (std_ofFn hq hn y).1, (std_ofFn hq hn y).2, List.map_ofFn]
    congr 1
    funext j
    simp [List.map_ofFn, Function.comp_def]
  refine ⟨gen z hp, ?_⟩
  have e : MC.prep true true (List.ofFn fun j => List.ofFn (z j))
      = MC.standardize (MC.prep true false (List.ofFn fun j => List.ofFn (z j))) := rfl
  rw [e, prep_ofFn, if_pos rfl, gen _ (by omega)]
  have hp' : (0:ℝ) < p := by exact_mod_cast hp
  have hn' : (0:ℝ) < n := by exact_mod_cast hn
  have m0 : mcMean (Fin.append z (fun j k => -z j k)) = 0 := by
    rw [mcMean, Fin.sum_univ_add]
    simp only [Fin.append_left, Fin.append_right]
    simp
  have s0 : mcSq (Fin.append z (fun j k => -z j k)) = mcSq z := by
    rw [mcSq, mcSq, Fin.sum_univ_add]
    simp only [Fin.append_left, Fin.append_right, neg_sq]
    push_cast
    field_simp
  simp only [m0, s0, sub_zero, ne_eq, OfNat.ofNat_ne_zero, not_false_eq_true, zero_pow]

/-! ### Consistency -/

/-- Averages over a change of the rows. -/
theorem avg_perturb {q n : ℕ} (hq : 0 < q) {f G : (Fin n → ℝ) → ℝ} {δ : ℝ} (y y' : Fin q → Fin n → ℝ)
    (h : ∀ j, |f (y' j) - f (y j)| ≤ δ * G (y j)) :
    |(∑ j, f (y' j)) / (q : ℝ) - (∑ j, f (y j)) / q| ≤ δ * ((∑ j, G (y j)) / q) := by
  have hq' : (0:ℝ) < q := by exact_mod_cast hq
  rw [← sub_div, ← Finset.sum_sub_distrib, abs_div, abs_of_pos hq', ← mul_div_assoc]
  gcongr
  rw [Finset.mul_sum]
  exact (Finset.abs_sum_le_sum_abs _ _).trans (Finset.sum_le_sum fun j _ => h j)

variable {Ω : Type} [MeasurableSpace Ω] {P : Measure Ω}

theorem slln {n : ℕ} (z : ℕ → Fin n → Ω → ℝ) (hpath : iIndepFun (fun j ω m => z j m ω) P)
    (hind : ∀ j, iIndepFun (z j) P) (hlaw : ∀ j m, HasLaw (z j m) (gaussianReal 0 1) P)
    {f : (Fin n → ℝ) → ℝ} (hf : Measurable f) (hi : Integrable f (stdNormal n)) :
    ∀ᵐ ω ∂P, Tendsto (fun p : ℕ => (∑ j : Fin p, f (fun m => z j m ω)) / p) atTop (𝓝 (∫ w, f w ∂stdNormal n)) := by
  have hrow : ∀ j, HasLaw (fun ω m => z j m ω) (stdNormal n) P := fun j => (hind j).hasLaw_pi (hlaw j)
  have hl : ∀ j, HasLaw (f ∘ fun ω m => z j m ω) ((stdNormal n).map f) P := fun j =>
    HasLaw.comp ⟨hf.aemeasurable, rfl⟩ (hrow j)
  have h := strong_law_ae_real (μ := P) (fun j ω => f (fun m => z j m ω)) ?_ ?_ ?_
  · have hE : ∫ ω, f (fun m => z 0 m ω) ∂P = ∫ w, f w ∂stdNormal n :=
      (hrow 0).integral_comp hf.aestronglyMeasurable
    rw [hE] at h
    filter_upwards [h] with ω hω
    refine hω.congr fun p => ?_
    rw [Finset.sum_range]
  · have h := hi
    rw [← (hrow 0).map_eq] at h
    exact h.comp_aemeasurable (hrow 0).aemeasurable
  · intro i j hij
    exact (hpath.indepFun hij).comp hf hf
  · intro i
    exact ⟨(hl i).aemeasurable, (hl 0).aemeasurable, (hl i).map_eq.trans (hl 0).map_eq.symm⟩

theorem stdNormal_moments (n : ℕ) :
    (Integrable (fun w : Fin n → ℝ => ∑ m, w m) (stdNormal n) ∧ ∫ w : Fin n → ℝ, ∑ m, w m ∂stdNormal n = 0) ∧
    (Integrable (fun w : Fin n → ℝ => ∑ m, w m ^ 2) (stdNormal n) ∧ ∫ w : Fin n → ℝ, ∑ m, w m ^ 2 ∂stdNormal n = n) := by
  have hlaw : ∀ m : Fin n, HasLaw (fun w : Fin n → ℝ => w m) (gaussianReal 0 1) (stdNormal n) := fun m =>
    (measurePreserving_eval (fun _ : Fin n => gaussianReal 0 1) m).hasLaw
  have hL : ∀ m : Fin n, MemLp (fun w : Fin n → ℝ => w m) 2 (stdNormal n) := by
    intro m
    have h : MemLp id 2 (gaussianReal 0 1) := memLp_id_gaussianReal 2
    rw [← (hlaw m).map_eq] at h
    exact h.comp_of_map (hlaw m).aemeasurable
  have e1 : ∀ m : Fin n, ∫ w : Fin n → ℝ, w m ∂stdNormal n = 0 := by
    intro m
    have := (hlaw m).integral_eq
    simpa using this
  have e2 : ∀ m : Fin n, ∫ w : Fin n → ℝ, w m ^ 2 ∂stdNormal n = 1 := by
    intro m
    have h := (hlaw m).variance_eq
    rw [variance_eq_sub (hL m), e1 m] at h
    simpa using h
  refine ⟨⟨integrable_finsetSum _ fun m _ => (hL m).integrable one_le_two, ?_⟩,
    ⟨integrable_finsetSum _ fun m _ => (hL m).integrable_sq, ?_⟩⟩
  · rw [integral_finsetSum _ fun m _ => (hL m).integrable one_le_two]; simp [e1]
  · rw [integral_finsetSum _ fun m _ => (hL m).integrable_sq]; simp [e2]

/-- **C84.** Consistency with standardised innovations: let the paths be independent with independent standard normal
innovations. With probability one the innovations are eventually not all equal (so that standardisation does not
divide by zero) and the result of one loop, with or without antithetic paths, converges to the exact value. -/
theorem C84_consistent [IsProbabilityMeasure P] {n : ℕ} {S K t r b σ : ℝ} {anti tr : Bool} {o : MC.Opt} (ht : 0 ≤ t)
    (ho : MC.new 1 n S K t r b σ anti true tr = .ok o) (k : MC.Kind) (call : Bool) (z : ℕ → Fin n → Ω → ℝ)
    (hpath : iIndepFun (fun j ω m => z j m ω) P)
    (hind : ∀ j, iIndepFun (z j) P) (hlaw : ∀ j m, HasLaw (z j m) (gaussianReal 0 1) P) :
    ∃ x : ℕ → Ω → ℝ,
      (∀ p, 0 < p → ∀ ω,
        MC.price k o call (fun _ => List.ofFn fun j : Fin p => List.ofFn fun m => z j m ω) = .ok [x p ω]) ∧
      ∀ᵐ ω ∂P, (∀ᶠ p in atTop, 0 < MC.std (MC.prep anti false (List.ofFn fun j : Fin p => List.ofFn fun m => z j m ω)).flatten) ∧
        Tendsto (fun p => x p ω) atTop (𝓝 (mcTarget k n call S K t r b σ)) := by
  have hn : 0 < n := Nat.pos_of_ne_zero ((C43_new 1 n S K t r b σ anti true tr).1 ⟨o, ho⟩)
  have hn' : (0:ℝ) < n := by exact_mod_cast hn
  rw [← fair_eq k hn ht call S K r b σ]
  have single : ∀ {l : List ℝ} {v : ℝ}, l.length = 1 → l[0]? = some v → l = [v] := by
    intro l v h1 h2
    match l, h1 with
    | [a], _ => simpa using h2
  obtain ⟨C, c, hC, hpert⟩ := mcPay_perturb k call hn S K t r b σ ht
  set f : (Fin n → ℝ) → ℝ := fun w => mcPay k call S K t r b σ w with hf
  set G : (Fin n → ℝ) → ℝ := fun w => C * mcDom c w with hG
  have fm : Measurable f := measurable_mcPay k call n S K t r b σ
  have fi : Integrable f (stdNormal n) := (memLp_mcPay k call n S K t r b σ).integrable one_le_two
  have fE : ∫ w, f w ∂stdNormal n = MC.fair k n call S K t r b σ := by
    simp only [hf, mcPay_eq, MC.fair]; exact integral_const_mul _ _
  have Gm : Measurable G := by simp only [hG, mcDom]; fun_prop
  have Gi : Integrable G (stdNormal n) := (integrable_mcDom n c).const_mul C
  have Gneg : ∀ w : Fin n → ℝ, G (fun m => -w m) = G w := by intro w; simp [hG, mcDom]
  -- mirrored payoffs
  have fnm : Measurable (fun w : Fin n → ℝ => f (fun m => -w m)) := fm.comp (by fun_prop)
  have fni : Integrable (fun w : Fin n → ℝ => f (fun m => -w m)) (stdNormal n) :=
    (measurePreserving_neg_stdNormal n).integrable_comp_of_integrable fi
  have fnE : ∫ w : Fin n → ℝ, f (fun m => -w m) ∂stdNormal n = MC.fair k n call S K t r b σ := by
    rw [← fE]
    exact (measurePreserving_neg_stdNormal n).hasLaw.integral_comp fm.aestronglyMeasurable
  obtain ⟨⟨i1, E1⟩, ⟨i2, E2⟩⟩ := stdNormal_moments n
  have L1 := slln z hpath hind hlaw fm fi
  have L2 := slln z hpath hind hlaw fnm fni
  have L3 := slln z hpath hind hlaw Gm Gi
  have L4 := slln z hpath hind hlaw (by fun_prop) i1
  have L5 := slln z hpath hind hlaw (by fun_prop) i2
  -- rows before and after
  set μ : ℕ → Ω → ℝ := fun p ω => mcMean (fun (j : Fin p) m => z j m ω) with hμ
  set q : ℕ → Ω → ℝ := fun p ω => mcSq (fun (j : Fin p) m => z j m ω) with hq
  have hμlim : ∀ᵐ ω ∂P, Tendsto (fun p => μ p ω) atTop (𝓝 0) := by
    filter_upwards [L4] with ω h
    have := h.div_const (n : ℝ)
    rw [E1, zero_div] at this
    refine this.congr fun p => ?_
    simp only [hμ, mcMean, div_div]
  have hqlim : ∀ᵐ ω ∂P, Tendsto (fun p => q p ω) atTop (𝓝 1) := by
    filter_upwards [L5] with ω h
    have := h.div_const (n : ℝ)
    rw [E2, div_self hn'.ne'] at this
    refine this.congr fun p => ?_
    simp only [hq, mcSq, div_div]
  -- general conclusion for an affine change of rows with mean `a p` and deviation `s p`
  have rowle : ∀ {a s : ℝ} (x : ℝ), |(x - a) / s - x| ≤ (|1 / s - 1| + |a / s|) * (1 + |x|) := by
    intro a s x
    have : (x - a) / s - x = (1 / s - 1) * x - a / s := by ring
    rw [this]
    calc _ ≤ |(1 / s - 1) * x| + |a / s| := abs_sub _ _
      _ = |1 / s - 1| * |x| + |a / s| := by rw [abs_mul]
      _ ≤ _ := by nlinarith [abs_nonneg x, abs_nonneg (1 / s - 1), abs_nonneg (a / s), mul_nonneg (abs_nonneg (a / s)) (abs_nonneg x)]
  have dlim : ∀ {a s : ℕ → ℝ}, Tendsto a atTop (𝓝 0) → Tendsto s atTop (𝓝 1) →
      Tendsto (fun p => |1 / s p - 1| + |a p / s p|) atTop (𝓝 0) := by
    intro a s ha hs
    have h1 : Tendsto (fun p => |1 / s p - 1|) atTop (𝓝 |1 / 1 - 1|) :=
      ((tendsto_const_nhds.div hs one_ne_zero).sub_const 1).abs
    have h2 : Tendsto (fun p => |a p / s p|) atTop (𝓝 |0 / 1|) := (ha.div hs one_ne_zero).abs
    simpa using h1.add h2
  cases anti with
  | false =>
    have hval := fun p (hp : 0 < p) ω => C43_price ho k call (fun _ => List.ofFn fun j : Fin p => List.ofFn fun m => z j m ω)
      (fun _ => p) (fun _ j m => (z j m ω - μ p ω) / √(q p ω - μ p ω ^ 2))
      (fun i _ => (prep_standard hp hn (fun (j : Fin p) m => z j m ω)).1)
    refine ⟨fun p ω => (∑ j : Fin p, f (fun m => (z j m ω - μ p ω) / √(q p ω - μ p ω ^ 2))) / p, fun p hp ω => ?_, ?_⟩
    · obtain ⟨it, h1, h2, h3⟩ := hval p hp ω
      rw [h1, single h2 (h3 0 one_pos)]
      rfl
    filter_upwards [L1, L3, hμlim, hqlim] with ω l1 l3 lμ lq
    have ls : Tendsto (fun p => √(q p ω - μ p ω ^ 2)) atTop (𝓝 1) := by
      have := (lq.sub (lμ.pow 2)).sqrt
      simpa using this
    refine ⟨?_, ?_⟩
    · filter_upwards [(tendsto_order.1 ls).1 0 one_pos, eventually_gt_atTop 0] with p h hp
      have e : MC.prep false false (List.ofFn fun j : Fin p => List.ofFn fun m => z j m ω)
        = List.ofFn fun j : Fin p => List.ofFn fun m => z j m ω := rfl
      rw [e, (std_ofFn hp hn (fun (j : Fin p) m => z j m ω)).2]
      exact h
    have ld := dlim lμ ls
    rw [fE] at l1
    have hdiff : Tendsto (fun p : ℕ => (∑ j : Fin p, f (fun m => (z j m ω - μ p ω) / √(q p ω - μ p ω ^ 2))) / (p : ℝ)
        - (∑ j : Fin p, f (fun m => z j m ω)) / p) atTop (𝓝 0) := by
      have hl := ld.mul l3
      rw [zero_mul] at hl
      refine squeeze_zero_norm' ?_ hl
      filter_upwards [(tendsto_order.1 ld).2 1 one_pos, eventually_gt_atTop 0] with p h hp
      exact avg_perturb (f := f) (G := G) hp (fun (j : Fin p) m => z j m ω) (fun j m => (z j m ω - μ p ω) / √(q p ω - μ p ω ^ 2))
        (fun j => hpert _ _ _ (by positivity) h.le fun m => rowle _)
    simpa using hdiff.add l1
  | true =>
    have hval := fun p (hp : 0 < p) ω => C43_price ho k call (fun _ => List.ofFn fun j : Fin p => List.ofFn fun m => z j m ω)
      (fun _ => p + p) (fun _ j m => Fin.append (fun (j : Fin p) m => z j m ω) (fun j m => -z j m ω) j m / √(q p ω))
      (fun i _ => (prep_standard hp hn (fun (j : Fin p) m => z j m ω)).2)
    refine ⟨fun p ω => (∑ j : Fin (p + p), f (fun m => Fin.append (fun (j : Fin p) m => z j m ω) (fun j m => -z j m ω) j m / √(q p ω))) / ((p + p : ℕ) : ℝ),
      fun p hp ω => ?_, ?_⟩
    · obtain ⟨it, h1, h2, h3⟩ := hval p hp ω
      rw [h1, single h2 (h3 0 one_pos)]
      rfl
    filter_upwards [L1, L2, L3, hqlim] with ω l1 l2 l3 lq
    have ls : Tendsto (fun p => √(q p ω)) atTop (𝓝 1) := by simpa using lq.sqrt
    refine ⟨?_, ?_⟩
    · filter_upwards [(tendsto_order.1 ls).1 0 one_pos, eventually_gt_atTop 0] with p h hp
      rw [prep_ofFn true (fun (j : Fin p) m => z j m ω), if_pos rfl, (std_ofFn (by omega) hn _).2]
      have hp' : (0:ℝ) < p := by exact_mod_cast hp
      have m0 : mcMean (Fin.append (fun (j : Fin p) m => z j m ω) (fun (j : Fin p) k => -z j k ω)) = 0 := by
        rw [mcMean, Fin.sum_univ_add]
        simp only [Fin.append_left, Fin.append_right]
        simp
      have s0 : mcSq (Fin.append (fun (j : Fin p) m => z j m ω) (fun (j : Fin p) k => -z j k ω)) = q p ω := by
        simp only [hq]
        rw [mcSq, mcSq, Fin.sum_univ_add]
        simp only [Fin.append_left, Fin.append_right, neg_sq]
        push_cast
        field_simp
      rw [m0, s0]
      simpa using h
    have ld := dlim tendsto_const_nhds ls
    have half : ∀ (g : (Fin n → ℝ) → ℝ) (p : ℕ), 0 < p →
        (∑ j : Fin (p + p), g (fun m => Fin.append (fun (j : Fin p) m => z j m ω) (fun j m => -z j m ω) j m)) / ((p + p : ℕ) : ℝ)
        = ((∑ j : Fin p, g (fun m => z j m ω)) / p + (∑ j : Fin p, g (fun m => -z j m ω)) / p) / 2 := by
      intro g p hp
      have hp' : (p:ℝ) ≠ 0 := by exact_mod_cast hp.ne'
      rw [Fin.sum_univ_add]
      simp only [Fin.append_left, Fin.append_right]
      push_cast
      field_simp
      ring
    have hplain : Tendsto (fun p : ℕ => (∑ j : Fin (p + p), f (fun m => Fin.append (fun (j : Fin p) m => z j m ω) (fun j m => -z j m ω) j m))
        / ((p + p : ℕ) : ℝ)) atTop (𝓝 (MC.fair k n call S K t r b σ)) := by
      rw [fE] at l1
      rw [fnE] at l2
      have := (l1.add l2).div_const 2
      rw [← two_mul, mul_div_cancel_left₀ _ (two_ne_zero)] at this
      refine this.congr' ?_
      filter_upwards [eventually_gt_atTop 0] with p hp
      rw [half f p hp]
    have hdom : Tendsto (fun p : ℕ => (∑ j : Fin (p + p), G (fun m => Fin.append (fun (j : Fin p) m => z j m ω) (fun j m => -z j m ω) j m))
        / ((p + p : ℕ) : ℝ)) atTop (𝓝 (∫ w, G w ∂stdNormal n)) := by
      refine l3.congr' ?_
      filter_upwards [eventually_gt_atTop 0] with p hp
      rw [half G p hp]
      simp only [Gneg]
      ring
    have hdiff : Tendsto (fun p : ℕ => (∑ j : Fin (p + p), f (fun m => Fin.append (fun (j : Fin p) m => z j m ω) (fun j m => -z j m ω) j m / √(q p ω))) / ((p + p : ℕ) : ℝ)
        - (∑ j : Fin (p + p), f (fun m => Fin.append (fun (j : Fin p) m => z j m ω) (fun j m => -z j m ω) j m)) / ((p + p : ℕ) : ℝ)) atTop (𝓝 0) := by
      have hl := ld.mul hdom
      rw [zero_mul] at hl
      refine squeeze_zero_norm' ?_ hl
      filter_upwards [(tendsto_order.1 ld).2 1 one_pos, eventually_gt_atTop 0] with p h hp
      refine avg_perturb (f := f) (G := G) (by omega) (fun (j : Fin (p + p)) m => Fin.append (fun (j : Fin p) m => z j m ω) (fun j m => -z j m ω) j m)
        (fun j m => Fin.append (fun (j : Fin p) m => z j m ω) (fun j m => -z j m ω) j m / √(q p ω))
        (fun j => hpert _ _ _ (by positivity) h.le fun m => ?_)
      have := rowle (a := 0) (s := √(q p ω)) (Fin.append (fun (j : Fin p) m => z j m ω) (fun j m => -z j m ω) j m)
      rwa [sub_zero] at this
    simpa using hdiff.add hplain

/-! ### Bias -/

/-- **C84, finding.** With `standardization=True` and a single path the innovations of the path always sum to zero, so
the vanilla result does not depend on them: every entry is the discounted payoff at the median price.
(The hypothesis excludes the division by zero of a constant path.) -/
theorem C84_single_path {loops n : ℕ} {S K t r b σ : ℝ} {tr : Bool} {o : MC.Opt}
    (ho : MC.new loops n S K t r b σ false true tr = .ok o) (call : Bool) (z : ℕ → Fin n → ℝ)
    (_hz : ∀ i < loops, ∃ m m', z i m ≠ z i m') :
    MC.price .vanilla o call (fun i => [List.ofFn (z i)])
      = .ok (List.replicate loops (exp (-r * t) * if call then max (S * exp ((b - σ ^ 2 / 2) * t) - K) 0
          else max (K - S * exp ((b - σ ^ 2 / 2) * t)) 0)) := by
  have hn : 0 < n := Nat.pos_of_ne_zero ((C43_new loops n S K t r b σ false true tr).1 ⟨o, ho⟩)
  have hn' : (n : ℝ) ≠ 0 := by exact_mod_cast hn.ne'
  have e1 : ∀ i, [List.ofFn (z i)] = List.ofFn fun j : Fin 1 => List.ofFn ((fun _ : Fin 1 => z i) j) := by
    intro i; simp
  have hp := fun i => (prep_standard one_pos hn (fun _ : Fin 1 => z i)).1
  obtain ⟨it, h1, h2, h3⟩ := C43_price ho .vanilla call (fun i => [List.ofFn (z i)]) (fun _ => 1)
    (fun i _ m => (z i m - mcMean (fun _ : Fin 1 => z i)) / √(mcSq (fun _ : Fin 1 => z i) - mcMean (fun _ : Fin 1 => z i) ^ 2))
    (fun i _ => by rw [e1 i]; exact hp i)
  rw [h1]
  congr 1
  refine List.ext_getElem? fun i => ?_
  by_cases hi : i < loops
  · rw [h3 i hi, List.getElem?_replicate, if_pos hi]
    congr 1
    have hsum : ∑ m, (z i m - mcMean (fun _ : Fin 1 => z i)) / √(mcSq (fun _ : Fin 1 => z i) - mcMean (fun _ : Fin 1 => z i) ^ 2) = 0 := by
      rw [← Finset.sum_div, Finset.sum_sub_distrib]
      have : mcMean (fun _ : Fin 1 => z i) = (∑ m, z i m) / n := by simp [mcMean]
      rw [this, Finset.sum_const, Finset.card_univ, Fintype.card_fin, nsmul_eq_mul, mul_div_cancel₀ _ hn', sub_self, zero_div]
    simp only [mcValue, mcPrice, pathEnd, hsum]
    simp
  · rw [List.getElem?_eq_none (by omega), List.getElem?_eq_none (by simpa using hi)]

/-- **C84, finding.** That value is below the Black–Scholes call for every contract: the estimate is biased, unlike the
one without standardisation (C61). -/
theorem C84_biased {S K t σ : ℝ} (hS : 0 < S) (hK : 0 < K) (ht : 0 < t) (hσ : 0 < σ) (r b : ℝ) :
    exp (-r * t) * max (S * exp ((b - σ ^ 2 / 2) * t) - K) 0 < bsPrice true S K t r b σ := by
  have hpos : 0 < bsCall S K t r b σ := by
    have h := bsCall_strictMono (r := r) (b := b) hS hK ht (by simpa using hσ : σ / 2 ∈ Set.Ioi (0:ℝ)) hσ (by linarith)
    exact (bsCall_nonneg S K t r b (σ / 2)).trans_lt h
  have hge := bsCall_ge (S := S) (K := K) (r := r) (b := b) (σ := σ) ht.le
  have hE := exp_pos (-r * t)
  simp only [bsPrice, if_true]
  rw [mul_max_of_nonneg _ _ hE.le, mul_zero]
  refine max_lt ?_ hpos
  refine lt_of_lt_of_le ?_ hge
  have h1 : exp ((b - σ ^ 2 / 2) * t) < exp (b * t) := exp_lt_exp.2 (by nlinarith [pow_pos hσ 2])
  have h2 : exp ((b - r) * t) = exp (-r * t) * exp (b * t) := by rw [← exp_add]; congr 1; ring
  rw [h2]
  nlinarith [mul_lt_mul_of_pos_left h1 (mul_pos hS hE)]

/-- Hypotheses met: a single path of two different innovations. -/
theorem C84_example : MC.price .vanilla ⟨1, 1 / 2, 100, 90, 1, 0, 0, 1, false, true, false⟩ true (fun _ => [[1, 3]])
    = .ok [max (100 * exp (-(1 / 2)) - 90) 0] := by
  have h := C84_single_path (loops := 1) (n := 2) (S := 100) (K := 90) (t := 1) (r := 0) (b := 0) (σ := 1) (tr := false)
    (o := ⟨1, 1 / 2, 100, 90, 1, 0, 0, 1, false, true, false⟩) (by simp [MC.new]) true (fun _ => ![1, 3])
    (fun _ _ => ⟨0, 1, by simp⟩)
  simpa using h

end Verif.Props
