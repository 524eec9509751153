import Verif.Lemmas.Asian
import Verif.Props.MCExpect

/-!
# Options on the arithmetic average: bounds and shape of the simulated value (C109)
-/
namespace Verif.Props
open Verif Verif.Spec Real MeasureTheory ProbabilityTheory

/-- Mean of the arithmetic average of the prices. -/
noncomputable def avgMean (n : ℕ) (S t b : ℝ) : ℝ := S / n * ∑ j : Fin n, exp (b * (t * ((j : ℝ) + 1) / n))

/-- **C109.** The value of the option on the arithmetic average lies between that on the geometric average and the same
shifted by the difference of the mean averages. -/
theorem geometric_enclosure {n : ℕ} (hn : 0 < n) {S t : ℝ} (hS : 0 < S) (ht : 0 ≤ t) (K r b σ : ℝ) :
    let gap := exp (-r * t) * (avgMean n S t b - S * exp (geoCarry n t b σ))
    0 ≤ gap ∧
    geometricValue n true S K t r b σ ≤ asianValue n true S K t r b σ ∧
    asianValue n true S K t r b σ ≤ geometricValue n true S K t r b σ + gap ∧
    geometricValue n false S K t r b σ - gap ≤ asianValue n false S K t r b σ ∧
    asianValue n false S K t r b σ ≤ geometricValue n false S K t r b σ := by
  intro gap
  have hE := exp_pos (-r * t)
  have hA := integrable_average n S t b σ
  have hGm : Measurable fun z : Fin n → ℝ => pathGeometric S t b σ z := by
    simp only [pathGeometric_eq hn hS, logPrice]; fun_prop
  have hG : Integrable (fun z : Fin n → ℝ => pathGeometric S t b σ z) (stdNormal n) := by
    refine hA.mono' hGm.aestronglyMeasurable (Filter.Eventually.of_forall fun z => ?_)
    have h0 : 0 ≤ pathGeometric S t b σ z := by rw [pathGeometric_eq hn hS]; positivity
    rw [norm_eq_abs, abs_of_nonneg h0]
    exact geometric_le hn hS t b σ z
  have mG : ∫ z, pathGeometric S t b σ z ∂stdNormal n = S * exp (geoCarry n t b σ) := by
    rw [integral_geometric hn hS ht b σ (f := fun x => x) continuous_id, integral_terminal zero_le_one, mul_one]
  have mA : ∫ z, pathAverage S t b σ z ∂stdNormal n = avgMean n S t b := by
    simp only [pathAverage]
    rw [integral_div, integral_finsetSum _ fun j _ => (integrable_price t b σ j).const_mul S, avgMean, Finset.mul_sum,
      Finset.sum_div]
    refine Finset.sum_congr rfl fun j _ => ?_
    rw [integral_const_mul, integral_price ht]; ring
  have hle := fun z : Fin n → ℝ => geometric_le hn hS t b σ z
  have hgap : gap = exp (-r * t) * ∫ z, (pathAverage S t b σ z - pathGeometric S t b σ z) ∂stdNormal n := by
    rw [integral_sub hA hG, mA, mG]
  have cA : Integrable (fun z : Fin n → ℝ => max (pathAverage S t b σ z - K) 0) (stdNormal n) := (hA.sub (integrable_const K)).pos_part
  have cG : Integrable (fun z : Fin n → ℝ => max (pathGeometric S t b σ z - K) 0) (stdNormal n) := (hG.sub (integrable_const K)).pos_part
  have pA : Integrable (fun z : Fin n → ℝ => max (K - pathAverage S t b σ z) 0) (stdNormal n) := ((integrable_const K).sub hA).pos_part
  have pG : Integrable (fun z : Fin n → ℝ => max (K - pathGeometric S t b σ z) 0) (stdNormal n) := ((integrable_const K).sub hG).pos_part
  have hD : Integrable (fun z : Fin n → ℝ => pathAverage S t b σ z - pathGeometric S t b σ z) (stdNormal n) := hA.sub hG
  refine ⟨?_, ?_, ?_, ?_, ?_⟩
  · rw [hgap]
    exact mul_nonneg hE.le (integral_nonneg fun z => sub_nonneg.2 (hle z))
  · simp only [geometricValue, asianValue, if_true]
    exact mul_le_mul_of_nonneg_left (integral_mono cG cA fun z => max_le_max (by linarith [hle z]) le_rfl) hE.le
  · simp only [geometricValue, asianValue, if_true]
    rw [hgap, ← mul_add, ← integral_add cG hD]
    refine mul_le_mul_of_nonneg_left (integral_mono cA (cG.add hD) fun z => ?_) hE.le
    simp only
    have := hle z
    exact max_le (by linarith [le_max_left (pathGeometric S t b σ z - K) 0])
      (by linarith [le_max_right (pathGeometric S t b σ z - K) 0])
  · simp only [geometricValue, asianValue, Bool.false_eq_true, if_false]
    rw [hgap, sub_le_iff_le_add, ← mul_add, ← integral_add pA hD]
    refine mul_le_mul_of_nonneg_left (integral_mono pG (pA.add hD) fun z => ?_) hE.le
    simp only
    have := hle z
    exact max_le (by linarith [le_max_left (K - pathAverage S t b σ z) 0])
      (by linarith [le_max_right (K - pathAverage S t b σ z) 0])
  · simp only [geometricValue, asianValue, Bool.false_eq_true, if_false]
    exact mul_le_mul_of_nonneg_left (integral_mono pA pG fun z => max_le_max (by linarith [hle z]) le_rfl) hE.le

variable {Ω : Type} [MeasurableSpace Ω] {P : Measure Ω}

/-- **C109.** Expected results of the simulated Asian option lie, for every number of time steps, between two closed forms: the
Black–Scholes value on the geometric average and that value shifted by the discounted difference of the two mean averages. -/
theorem C109_geometric {loops n p : ℕ} {S K t r b σ : ℝ} {anti tr : Bool} {o : MC.Opt} (hp : 0 < p) (hS : 0 < S) (ht : 0 ≤ t)
    (ho : MC.new loops n S K t r b σ anti false tr = .ok o) (call : Bool) (z : ℕ → Fin p → Fin n → Ω → ℝ)
    (hind : ∀ i j, iIndepFun (z i j) P) (hlaw : ∀ i j m, HasLaw (z i j m) (gaussianReal 0 1) P) :
    ∃ it : Ω → List ℝ,
      (∀ ω, MC.price .asian o call (fun i => List.ofFn fun j => List.ofFn fun m => z i j m ω) = .ok (it ω)) ∧
      ∀ i < loops, ∃ x : Ω → ℝ, (∀ ω, (it ω)[i]? = some (x ω)) ∧
        let ν := σ * √(t * ((n : ℝ) + 1) * (2 * n + 1) / (6 * n ^ 2))
        let β := (b - σ ^ 2 / 2) * (t * ((n : ℝ) + 1) / (2 * n)) + ν ^ 2 / 2
        let G := exp (-r * t) * bsPrice call S K 1 0 β ν
        let gap := exp (-r * t) * (S / n * ∑ j : Fin n, exp (b * (t * ((j : ℝ) + 1) / n)) - S * exp β)
        0 ≤ gap ∧ if call then G ≤ ∫ ω, x ω ∂P ∧ ∫ ω, x ω ∂P ≤ G + gap
          else G - gap ≤ ∫ ω, x ω ∂P ∧ ∫ ω, x ω ∂P ≤ G := by
  have hn : 0 < n := Nat.pos_of_ne_zero ((C43_new loops n S K t r b σ anti false tr).1 ⟨o, ho⟩)
  obtain ⟨it, h1, h2⟩ := C61_unbiased hp ht ho .asian call z hind hlaw
  refine ⟨it, h1, fun i hi => ?_⟩
  obtain ⟨x, hx, -, hm⟩ := h2 i hi
  refine ⟨x, hx, ?_⟩
  obtain ⟨g0, g1, g2, g3, g4⟩ := geometric_enclosure hn hS ht K r b σ
  rw [geometricValue_eq hn hS ht] at g1 g2 g3 g4
  rw [hm]
  refine ⟨g0, ?_⟩
  cases call
  · exact ⟨g3, g4⟩
  · exact ⟨g1, g2⟩

/-- **C109.** The value that the simulation estimates without bias (C61) increases with the volatility, for calls and puts. -/
theorem C109_volatility {loops n p : ℕ} {S K t r b σ σ' : ℝ} {anti anti' tr tr' : Bool} {o o' : MC.Opt} (hp : 0 < p) (ht : 0 ≤ t)
    (h0 : 0 ≤ σ) (hσ : σ ≤ σ')
    (ho : MC.new loops n S K t r b σ anti false tr = .ok o) (ho' : MC.new loops n S K t r b σ' anti' false tr' = .ok o')
    (call : Bool) (z : ℕ → Fin p → Fin n → Ω → ℝ)
    (hind : ∀ i j, iIndepFun (z i j) P) (hlaw : ∀ i j m, HasLaw (z i j m) (gaussianReal 0 1) P) :
    ∃ it it' : Ω → List ℝ,
      (∀ ω, MC.price .asian o call (fun i => List.ofFn fun j => List.ofFn fun m => z i j m ω) = .ok (it ω)) ∧
      (∀ ω, MC.price .asian o' call (fun i => List.ofFn fun j => List.ofFn fun m => z i j m ω) = .ok (it' ω)) ∧
      ∀ i < loops, ∃ x x' : Ω → ℝ, (∀ ω, (it ω)[i]? = some (x ω)) ∧ (∀ ω, (it' ω)[i]? = some (x' ω)) ∧
        ∫ ω, x ω ∂P ≤ ∫ ω, x' ω ∂P := by
  obtain ⟨it, h1, h2⟩ := C61_unbiased hp ht ho .asian call z hind hlaw
  obtain ⟨it', h1', h2'⟩ := C61_unbiased hp ht ho' .asian call z hind hlaw
  refine ⟨it, it', h1, h1', fun i hi => ?_⟩
  obtain ⟨x, hx, -, hm⟩ := h2 i hi
  obtain ⟨x', hx', -, hm'⟩ := h2' i hi
  refine ⟨x, x', hx, hx', ?_⟩
  rw [hm, hm']
  exact asianValue_mono ht call S K r b h0 hσ

/-- **C109, proved part.** With non-negative carry an Asian call, with non-positive carry an Asian put, has an expected result
of at most the Black–Scholes value of the vanilla option. -/
theorem C109_vanilla_partial {loops n p : ℕ} {S K t r b σ : ℝ} {anti tr : Bool} {o : MC.Opt} (hp : 0 < p) (hS : 0 ≤ S) (ht : 0 ≤ t)
    (ho : MC.new loops n S K t r b σ anti false tr = .ok o) (call : Bool) (hb : if call then 0 ≤ b else b ≤ 0)
    (z : ℕ → Fin p → Fin n → Ω → ℝ)
    (hind : ∀ i j, iIndepFun (z i j) P) (hlaw : ∀ i j m, HasLaw (z i j m) (gaussianReal 0 1) P) :
    ∃ it : Ω → List ℝ,
      (∀ ω, MC.price .asian o call (fun i => List.ofFn fun j => List.ofFn fun m => z i j m ω) = .ok (it ω)) ∧
      ∀ i < loops, ∃ x : Ω → ℝ, (∀ ω, (it ω)[i]? = some (x ω)) ∧ ∫ ω, x ω ∂P ≤ bsPrice call S K t r b σ := by
  have hn : 0 < n := Nat.pos_of_ne_zero ((C43_new loops n S K t r b σ anti false tr).1 ⟨o, ho⟩)
  obtain ⟨it, h1, h2⟩ := C61_unbiased hp ht ho .asian call z hind hlaw
  refine ⟨it, h1, fun i hi => ?_⟩
  obtain ⟨x, hx, -, hm⟩ := h2 i hi
  refine ⟨x, hx, ?_⟩
  rw [hm]
  exact asianValue_le hn call hS ht hb K r σ

theorem avgMean_gt {n : ℕ} (hn : 2 ≤ n) {S t b : ℝ} (hS : 0 < S) (ht : 0 < t) (hb : b < 0) :
    S * exp (b * t) < avgMean n S t b := by
  have hn' : (0 : ℝ) < n := by exact_mod_cast (by omega : 0 < n)
  have h : ∑ _j : Fin n, exp (b * t) < ∑ j : Fin n, exp (b * (t * ((j : ℝ) + 1) / n)) := by
    refine Finset.sum_lt_sum (fun j _ => ?_) ⟨⟨0, by omega⟩, Finset.mem_univ _, ?_⟩
    · refine exp_le_exp.2 (mul_le_mul_of_nonpos_left ?_ hb.le)
      rw [div_le_iff₀ hn']
      exact mul_le_mul_of_nonneg_left (by exact_mod_cast j.2) ht.le
    · refine exp_lt_exp.2 (mul_lt_mul_of_neg_left ?_ hb)
      have : (2 : ℝ) ≤ n := by exact_mod_cast hn
      simp only [Nat.cast_zero, zero_add, mul_one]
      exact div_lt_self ht (by linarith)
  rw [Finset.sum_const, Finset.card_univ, Fintype.card_fin, nsmul_eq_mul] at h
  rw [avgMean]
  have := mul_lt_mul_of_pos_left h (div_pos hS hn')
  calc S * exp (b * t) = S / n * (n * exp (b * t)) := by field_simp
    _ < _ := this

theorem asian_dearer {n : ℕ} (hn : 2 ≤ n) {S t b : ℝ} (hS : 0 < S) (ht : 0 < t) (hb : b < 0) (r σ : ℝ) :
    ∃ K, 0 < K ∧ bsPrice true S K t r b σ < asianValue n true S K t r b σ := by
  have hlt := avgMean_gt hn hS ht hb
  have hE := exp_pos (-r * t)
  refine ⟨(avgMean n S t b - S * exp (b * t)) / 2, by linarith, ?_⟩
  set K := (avgMean n S t b - S * exp (b * t)) / 2 with hK
  have hK0 : 0 < K := by rw [hK]; linarith
  have h1 := C61_asian_parity (n := n) (by omega) ht.le S K r b σ
  simp only [mcTarget] at h1
  have h2 : 0 ≤ asianValue n false S K t r b σ := by
    simp only [asianValue, Bool.false_eq_true, if_false]
    exact mul_nonneg hE.le (integral_nonneg fun z => le_max_right _ _)
  have h3 : bsPrice true S K t r b σ ≤ exp (-r * t) * (S * exp (b * t)) := by
    simp only [bsPrice, bsCall, if_true]
    refine mul_le_mul_of_nonneg_left ?_ hE.le
    rw [← integral_terminal ht.le (σ := σ)]
    refine integral_mono (((integrable_terminal _ _ _ _).sub (integrable_const K)).pos_part) (integrable_terminal _ _ _ _) fun x => ?_
    have : 0 ≤ terminal S t b σ x := mul_nonneg hS.le (exp_pos _).le
    exact max_le (by linarith) this
  have h4 : exp (-r * t) * (S * exp (b * t)) < exp (-r * t) * (avgMean n S t b - K) :=
    mul_lt_mul_of_pos_left (by rw [hK]; linarith) hE
  rw [avgMean] at h4
  linarith

theorem avgMean_lt {n : ℕ} (hn : 2 ≤ n) {S t b : ℝ} (hS : 0 < S) (ht : 0 < t) (hb : 0 < b) :
    avgMean n S t b < S * exp (b * t) := by
  have hn' : (0 : ℝ) < n := by exact_mod_cast (by omega : 0 < n)
  have h : ∑ j : Fin n, exp (b * (t * ((j : ℝ) + 1) / n)) < ∑ _j : Fin n, exp (b * t) := by
    refine Finset.sum_lt_sum (fun j _ => ?_) ⟨⟨0, by omega⟩, Finset.mem_univ _, ?_⟩
    · refine exp_le_exp.2 (mul_le_mul_of_nonneg_left ?_ hb.le)
      rw [div_le_iff₀ hn']
      exact mul_le_mul_of_nonneg_left (by exact_mod_cast j.2) ht.le
    · refine exp_lt_exp.2 (mul_lt_mul_of_pos_left ?_ hb)
      have : (2 : ℝ) ≤ n := by exact_mod_cast hn
      simp only [Nat.cast_zero, zero_add, mul_one]
      exact div_lt_self ht (by linarith)
  rw [Finset.sum_const, Finset.card_univ, Fintype.card_fin, nsmul_eq_mul] at h
  rw [avgMean]
  have := mul_lt_mul_of_pos_left h (div_pos hS hn')
  calc _ < S / n * (n * exp (b * t)) := this
    _ = S * exp (b * t) := by field_simp

/-- Calls with a large strike are nearly worthless. -/
theorem bsCall_far {S K t : ℝ} (hK : 0 < K) (ht : 0 ≤ t) (r b σ : ℝ) :
    bsCall S K t r b σ ≤ exp (-r * t) * (S ^ 2 * exp ((2 * b + σ ^ 2) * t) / (4 * K)) := by
  refine mul_le_mul_of_nonneg_left ?_ (exp_pos _).le
  have e : ∀ x, terminal (S ^ 2) t (2 * b + σ ^ 2) (2 * σ) x = terminal S t b σ x ^ 2 := by
    intro x
    simp only [terminal, mul_pow, ← exp_nat_mul]
    congr 2
    push_cast; ring
  rw [← integral_terminal ht (σ := 2 * σ), ← integral_div]
  refine integral_mono (((integrable_terminal S t b σ).sub (integrable_const K)).pos_part)
    ((integrable_terminal _ _ _ _).div_const _) fun x => ?_
  simp only [e]
  refine max_le ?_ (by positivity)
  change terminal S t b σ x - K ≤ _
  rw [le_div_iff₀ (by positivity)]
  nlinarith [sq_nonneg (terminal S t b σ x - 2 * K)]

theorem asian_put_dearer {n : ℕ} (hn : 2 ≤ n) {S t b : ℝ} (hS : 0 < S) (ht : 0 < t) (hb : 0 < b) (r σ : ℝ) :
    ∃ K, 0 < K ∧ bsPrice false S K t r b σ < asianValue n false S K t r b σ := by
  have hlt := avgMean_lt hn hS ht hb
  have hE := exp_pos (-r * t)
  set g := S * exp (b * t) - avgMean n S t b with hg
  set M := S ^ 2 * exp ((2 * b + σ ^ 2) * t) with hM
  have hg0 : 0 < g := by rw [hg]; linarith
  have hM0 : 0 < M := by positivity
  refine ⟨M / g, by positivity, ?_⟩
  have hc := bsCall_far (S := S) (K := M / g) (by positivity) ht.le r b σ
  rw [← hM] at hc
  have h5 : M / (4 * (M / g)) = g / 4 := by field_simp
  rw [h5] at hc
  have h1 := C61_asian_parity (n := n) (by omega) ht.le S (M / g) r b σ
  simp only [mcTarget] at h1
  have h2 : 0 ≤ asianValue n true S (M / g) t r b σ := by
    simp only [asianValue, if_true]
    exact mul_nonneg hE.le (integral_nonneg fun z => le_max_right _ _)
  have h3 := bsCall_sub_bsPut (S := S) (K := M / g) (r := r) (b := b) (σ := σ) ht.le
  have h4 : exp ((b - r) * t) = exp (-r * t) * exp (b * t) := by rw [← exp_add]; congr 1; ring
  rw [h4] at h3
  simp only [bsPrice, Bool.false_eq_true, if_false]
  have h6 : exp (-r * t) * (g / 4) < exp (-r * t) * g := mul_lt_mul_of_pos_left (by linarith) hE
  have h7 : exp (-r * t) * g = exp (-r * t) * (S * exp (b * t)) - exp (-r * t) * (S / n * ∑ j : Fin n, exp (b * (t * ((j : ℝ) + 1) / n))) := by
    rw [hg, avgMean]; ring
  linarith

/-- **C109 fails** for calls with negative carry and for puts with positive carry: for all contracts with at least two steps there
are strikes at which the Asian option has a larger expected result than the vanilla option is worth. -/
theorem C109_vanilla_fails {loops n p : ℕ} (hn : 2 ≤ n) (hp : 0 < p) {S t b : ℝ} (hS : 0 < S) (ht : 0 < t) (call : Bool)
    (hb : if call then b < 0 else 0 < b) (r σ : ℝ) (anti tr : Bool) (z : ℕ → Fin p → Fin n → Ω → ℝ)
    (hind : ∀ i j, iIndepFun (z i j) P) (hlaw : ∀ i j m, HasLaw (z i j m) (gaussianReal 0 1) P) :
    ∃ K o, 0 < K ∧ MC.new loops n S K t r b σ anti false tr = .ok o ∧ ∃ it : Ω → List ℝ,
      (∀ ω, MC.price .asian o call (fun i => List.ofFn fun j => List.ofFn fun m => z i j m ω) = .ok (it ω)) ∧
      ∀ i < loops, ∃ x : Ω → ℝ, (∀ ω, (it ω)[i]? = some (x ω)) ∧ bsPrice call S K t r b σ < ∫ ω, x ω ∂P := by
  obtain ⟨K, hK, hlt⟩ : ∃ K, 0 < K ∧ bsPrice call S K t r b σ < asianValue n call S K t r b σ := by
    cases call
    · exact asian_put_dearer hn hS ht hb r σ
    · exact asian_dearer hn hS ht hb r σ
  obtain ⟨o, ho⟩ := (C43_new loops n S K t r b σ anti false tr).2 (by omega)
  obtain ⟨it, h1, h2⟩ := C61_unbiased hp ht.le ho .asian call z hind hlaw
  refine ⟨K, o, hK, ho, it, h1, fun i hi => ?_⟩
  obtain ⟨x, hx, -, hm⟩ := h2 i hi
  exact ⟨x, hx, by rw [hm]; exact hlt⟩

/-- Example for C109: two time steps, a year, carry equal to the rate; innovations as in `C62_example`. -/
theorem C109_example : ∃ o, MC.new 3 2 100 95 1 0.05 0.05 0.2 false false false = .ok o ∧
    exp (-0.05) * bsPrice true 100 95 1 0 (geoCarry 2 1 0.05 0.2) (geoVol 2 1 0.2) ≤ asianValue 2 true 100 95 1 0.05 0.05 0.2 ∧
    asianValue 2 true 100 95 1 0.05 0.05 0.2 ≤ bsPrice true 100 95 1 0.05 0.05 0.2 ∧
    asianValue 2 true 100 95 1 0.05 0.05 0.2 ≤ asianValue 2 true 100 95 1 0.05 0.05 0.3 := by
  refine ⟨_, rfl, ?_, ?_, ?_⟩
  · have h := (geometric_enclosure (n := 2) (by norm_num) (S := 100) (t := 1) (by norm_num) (by norm_num) 95 0.05 0.05 0.2).2.1
    rw [geometricValue_eq (by norm_num) (by norm_num) (by norm_num), mul_one] at h
    exact h
  · exact asianValue_le (by norm_num) true (by norm_num) (by norm_num) (by norm_num) _ _ _
  · exact asianValue_mono (by norm_num) true _ _ _ _ (by norm_num) (by norm_num)

end Verif.Props
