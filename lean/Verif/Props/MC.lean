import Verif.Lemmas.MC
import Verif.Lemmas.Loop
import Mathlib.Algebra.Order.BigOperators.Group.Finset
import Mathlib.Algebra.BigOperators.Group.List.Lemmas

/-!
C43–C48: Monte Carlo options.
-/
namespace Verif.Props
open Verif Verif.Spec Real

/-- **C43.** For any innovation, path and payoff classes: if no loop's average is infinite the result has one entry
per loop, in loop order, the average payoff on that loop's own innovations. -/
theorem C43_averages {E P A : Type} (zero : A) (isInf : A → Bool) (mean : P → A) (prep : E → E) (pay : E → P)
    (n : ℕ) (sample : ℕ → E) (h : ∀ i < n, isInf (mean (pay (prep (sample i)))) = false) :
    ∃ it, MC.sim zero isInf mean prep pay n sample = .ok it ∧ it.length = n ∧
      ∀ i < n, it[i]? = some (mean (pay (prep (sample i)))) := by
  refine ⟨_, MC.sim_ok zero isInf mean prep pay n sample h, by simp, fun i hi => ?_⟩
  simp [hi]

/-- **C43.** Otherwise the data of the first loop with an infinite average are returned. -/
theorem C43_infinite {E P A : Type} (zero : A) (isInf : A → Bool) (mean : P → A) (prep : E → E) (pay : E → P)
    (n : ℕ) (sample : ℕ → E) (h : ∃ i < n, isInf (mean (pay (prep (sample i)))) = true) :
    ∃ i < n, isInf (mean (pay (prep (sample i)))) = true ∧
      (∀ j < i, isInf (mean (pay (prep (sample j)))) = false) ∧
      MC.sim zero isInf mean prep pay n sample = .error (prep (sample i), pay (prep (sample i))) := by
  classical
  have hs := Nat.find_spec h
  refine ⟨Nat.find h, hs.1, hs.2, ?_, ?_⟩
  · intro j hj
    have := Nat.find_min h hj
    simp only [not_and, Bool.not_eq_true] at this
    exact this (hj.trans hs.1)
  · refine MC.sim_inf zero isInf mean prep pay n sample hs.1 ?_ hs.2
    intro j hj
    have := Nat.find_min h hj
    simp only [not_and, Bool.not_eq_true] at this
    exact this (hj.trans hs.1)

/-- The simulated price on a path: at maturity for the vanilla payoff, the average for the Asian one. -/
noncomputable def mcPrice (k : MC.Kind) {n : ℕ} (S t b σ : ℝ) (z : Fin n → ℝ) : ℝ :=
  match k with
  | .vanilla => pathEnd S t b σ z
  | .asian => pathAverage S t b σ z

/-- The discounted average payoff over `p` paths. -/
noncomputable def mcValue (k : MC.Kind) (call : Bool) {p n : ℕ} (S K t r b σ : ℝ) (z : Fin p → Fin n → ℝ) : ℝ :=
  (∑ i, exp (-r * t) * (if call then max (mcPrice k S t b σ (z i) - K) 0
    else max (K - mcPrice k S t b σ (z i)) 0)) / p

/-- **C43**, **C46** for the library's path and payoff classes: if the innovations used in loop `i` (after variance
reduction) are the `p i × n` matrix `z i`, `call()` and `put()` return the array whose entry `i` is the
discounted average payoff at the prices `S exp((b-σ²/2)t + σ√(t/n) Σ z)` (averaged along the path for Asian
options). -/
theorem C43_price {loops n : ℕ} {S K t r b σ : ℝ} {anti stand tr : Bool} {o : MC.Opt}
    (ho : MC.new loops n S K t r b σ anti stand tr = .ok o) (k : MC.Kind) (call : Bool) (sample : ℕ → MC.Rows)
    (p : ℕ → ℕ) (z : (i : ℕ) → Fin (p i) → Fin n → ℝ)
    (hz : ∀ i < loops, MC.prep anti stand (sample i) = List.ofFn fun j => List.ofFn (z i j)) :
    ∃ it, MC.price k o call sample = .ok it ∧ it.length = loops ∧
      ∀ i < loops, it[i]? = some (mcValue k call S K t r b σ (z i)) := by
  have hspec : ∀ (n : ℕ) (w : Fin n → ℝ), k.spec S t b σ w = mcPrice k S t b σ w := by
    intro n w; cases k <;> rfl
  have h2 : o.anti = anti ∧ o.stand = stand ∧ o.loops = loops := by
    unfold MC.new at ho
    split_ifs at ho with hn
    cases ho
    exact ⟨rfl, rfl, rfl⟩
  obtain ⟨it, h1, hl, hi⟩ := C43_averages (0 : ℝ) (fun _ => false) MC.mean (MC.prep o.anti o.stand)
    (MC.payoff k o call) o.loops sample (fun _ _ => rfl)
  rw [h2.2.2] at hl hi
  refine ⟨it, h1, hl, fun i hlt => ?_⟩
  rw [hi i hlt, h2.1, h2.2.1, hz i hlt, MC.payoff_rows ho, MC.mean_ofFn]
  simp only [mcValue, hspec]

/-- The constructor raises only for a zero path length. -/
theorem C43_new (loops n : ℕ) (S K t r b σ : ℝ) (anti stand tr : Bool) :
    (∃ o, MC.new loops n S K t r b σ anti stand tr = .ok o) ↔ n ≠ 0 := by
  unfold MC.new
  split_ifs with h <;> simp [h]

/-! ### Variance reduction -/

theorem flatten_antithetic (eps : MC.Rows) :
    (MC.antithetic eps).flatten = eps.flatten ++ eps.flatten.map (fun x => -x) := by
  rw [MC.antithetic, List.flatten_append, List.map_flatten]

theorem sum_map_neg (l : List ℝ) : (l.map (fun x => -x)).sum = -l.sum := by
  induction l with
  | nil => simp
  | cons x l ih => simp only [List.map_cons, List.sum_cons, ih]; ring

/-- **C44.** With `antithetic=True` a loop uses twice as many paths; the path `i` of the second half is the
negative of path `i` of the first; the innovations sum to zero, all and at each time step. -/
theorem C44_antithetic (eps : MC.Rows) :
    (MC.prep true false eps).length = 2 * eps.length ∧
    (∀ i < eps.length, (MC.prep true false eps)[i]? = eps[i]? ∧
      (MC.prep true false eps)[eps.length + i]? = eps[i]?.map (fun row => row.map (fun x => -x))) ∧
    (MC.prep true false eps).flatten.sum = 0 ∧
    (∀ j : ℕ, ((MC.prep true false eps).map (fun row => row.getD j 0)).sum = 0) := by
  have e : MC.prep true false eps = MC.antithetic eps := rfl
  rw [e]
  refine ⟨by simp [MC.antithetic]; ring, fun i hi => ⟨?_, ?_⟩, ?_, fun j => ?_⟩
  · rw [MC.antithetic, List.getElem?_append_left hi]
  · rw [MC.antithetic, List.getElem?_append_right (by omega), List.getElem?_map]
    simp
  · rw [flatten_antithetic, List.sum_append, sum_map_neg]; ring
  · simp only [MC.antithetic, List.map_append, List.sum_append, List.map_map]
    have : (eps.map ((fun row : List ℝ => row.getD j 0) ∘ fun row => row.map (fun x => -x)))
        = (eps.map (fun row => row.getD j 0)).map (fun x => -x) := by
      rw [List.map_map]
      congr 1
      funext row
      simp only [Function.comp, List.getD_eq_getElem?_getD, List.getElem?_map]
      cases row[j]? <;> simp
    rw [this, sum_map_neg]; ring

theorem sum_map_affine (l : List ℝ) (m s : ℝ) : (l.map (fun x => (x - m) / s)).sum = (l.sum - l.length * m) / s := by
  induction l with
  | nil => simp
  | cons x l ih => simp only [List.map_cons, List.sum_cons, ih, List.length_cons]; push_cast; ring

theorem sum_map_div (l : List ℝ) (f : ℝ → ℝ) (s : ℝ) : (l.map (fun x => f x / s)).sum = (l.map f).sum / s := by
  induction l with
  | nil => simp
  | cons x l ih => simp only [List.map_cons, List.sum_cons, ih]; ring

theorem sum_sq_nonneg (l : List ℝ) (m : ℝ) : 0 ≤ (l.map (fun x => (x - m) ^ 2)).sum :=
  List.sum_nonneg (by intro y hy; simp only [List.mem_map] at hy; obtain ⟨x, -, rfl⟩ := hy; positivity)

/-- Not all entries equal: the standard deviation is positive. -/
theorem std_pos {l : List ℝ} {x y : ℝ} (hx : x ∈ l) (hy : y ∈ l) (hxy : x ≠ y) : 0 < MC.std l := by
  rw [MC.std, Real.sqrt_pos, MC.mean]
  have hlen : 0 < ((l.map (fun x => (x - MC.mean l) ^ 2)).length : ℝ) := by
    rw [List.length_map]; exact_mod_cast List.length_pos_of_mem hx
  refine div_pos ?_ hlen
  have key : ∀ z ∈ l, z ≠ MC.mean l → 0 < (l.map (fun x => (x - MC.mean l) ^ 2)).sum := by
    intro z hz hne
    have h1 : (z - MC.mean l) ^ 2 ≤ (l.map (fun x => (x - MC.mean l) ^ 2)).sum :=
      List.single_le_sum (by intro w hw; simp only [List.mem_map] at hw; obtain ⟨x, -, rfl⟩ := hw; positivity) _
        (List.mem_map.2 ⟨z, hz, rfl⟩)
    have : 0 < (z - MC.mean l) ^ 2 := by have := sub_ne_zero.2 hne; positivity
    linarith
  by_cases h : x = MC.mean l
  · exact key y hy (fun k => hxy (h.trans k.symm))
  · exact key x hx h

theorem flatten_standardize (eps : MC.Rows) :
    (MC.standardize eps).flatten
      = eps.flatten.map (fun x => (x - MC.mean eps.flatten) / MC.std eps.flatten) := by
  rw [MC.standardize, List.map_flatten]

/-- Standardising a list that is not constant gives mean zero and population standard deviation one. -/
theorem standard_list {l : List ℝ} (hs : 0 < MC.std l) :
    MC.mean (l.map (fun x => (x - MC.mean l) / MC.std l)) = 0 ∧
    MC.std (l.map (fun x => (x - MC.mean l) / MC.std l)) = 1 := by
  have hn : (l.length : ℝ) ≠ 0 := by
    intro h
    have : l = [] := by simpa using h
    subst this
    simp [MC.std, MC.mean] at hs
  have hm : MC.mean (l.map (fun x => (x - MC.mean l) / MC.std l)) = 0 := by
    rw [MC.mean, sum_map_affine, MC.mean]
    field_simp
    simp
  refine ⟨hm, ?_⟩
  rw [MC.std, hm, List.map_map]
  have e : ((fun x : ℝ => (x - 0) ^ 2) ∘ fun x => (x - MC.mean l) / MC.std l)
      = fun x => (x - MC.mean l) ^ 2 / MC.std l ^ 2 := by
    funext x; simp [div_pow]
  have hv : MC.std l ^ 2 = MC.mean (l.map (fun x => (x - MC.mean l) ^ 2)) := by
    rw [MC.std, Real.sq_sqrt]
    rw [MC.mean]
    exact div_nonneg (sum_sq_nonneg _ _) (Nat.cast_nonneg _)
  have : MC.mean (l.map (fun x => (x - MC.mean l) ^ 2 / MC.std l ^ 2)) = 1 := by
    rw [MC.mean, sum_map_div, List.length_map]
    rw [hv]
    have h0 : MC.mean (l.map (fun x => (x - MC.mean l) ^ 2)) ≠ 0 := by rw [← hv]; positivity
    have h1 : MC.mean (l.map (fun x => (x - MC.mean l) ^ 2))
        = (l.map (fun x => (x - MC.mean l) ^ 2)).sum / l.length := by
      conv_lhs => rw [MC.mean, List.length_map]
    generalize MC.mean (l.map (fun x => (x - MC.mean l) ^ 2)) = v at *
    rw [div_right_comm, ← h1, div_self h0]
  rw [e, this, Real.sqrt_one]

/-- **C44.** With `standardization=True` (with or without antithetic paths) the innovations of a loop, if not all
equal, have mean zero and population standard deviation one. -/
theorem C44_standardized (anti : Bool) (eps : MC.Rows) {x y : ℝ}
    (hx : x ∈ (MC.prep anti false eps).flatten) (hy : y ∈ (MC.prep anti false eps).flatten) (hxy : x ≠ y) :
    (MC.prep anti true eps).flatten.sum = 0 ∧
    (MC.prep anti true eps).length = (MC.prep anti false eps).length ∧
    ((MC.prep anti true eps).flatten.map (fun x : ℝ => x ^ 2)).sum = ((MC.prep anti true eps).flatten.length : ℝ) := by
  have e : MC.prep anti true eps = MC.standardize (MC.prep anti false eps) := rfl
  rw [e, flatten_standardize]
  set l := (MC.prep anti false eps).flatten with hl
  have hs := std_pos hx hy hxy
  obtain ⟨h1, h2⟩ := standard_list hs
  have hn : ((l.map (fun x => (x - MC.mean l) / MC.std l)).length : ℝ) ≠ 0 := by
    rw [List.length_map]
    have := List.length_pos_of_mem hx
    exact_mod_cast this.ne'
  refine ⟨?_, by simp [MC.standardize], ?_⟩
  · rw [MC.mean, div_eq_zero_iff] at h1
    exact h1.resolve_right hn
  · rw [MC.std, h1] at h2
    have h3 : MC.mean ((l.map (fun x => (x - MC.mean l) / MC.std l)).map (fun x => (x - 0) ^ 2)) = 1 := by
      have h4 := congrArg (· ^ 2) h2
      simp only [one_pow] at h4
      rwa [Real.sq_sqrt] at h4
      rw [MC.mean]
      exact div_nonneg (sum_sq_nonneg _ _) (Nat.cast_nonneg _)
    rw [MC.mean, List.length_map, div_eq_one_iff_eq hn] at h3
    simpa using h3

/-- **C44.** Both combine: after standardisation the second half is still the negative of the first. -/
theorem C44_both (eps : MC.Rows) {x y : ℝ} (_ : x ∈ eps.flatten) (_ : y ∈ eps.flatten) (_ : x ≠ y) :
    ∀ i < eps.length, (MC.prep true true eps)[eps.length + i]?
      = (MC.prep true true eps)[i]?.map (fun row => row.map (fun x => -x)) := by
  intro i hi
  have e : MC.prep true true eps = MC.standardize (MC.antithetic eps) := rfl
  have hm : MC.mean (MC.antithetic eps).flatten = 0 := by
    rw [MC.mean, flatten_antithetic, List.sum_append, sum_map_neg]; simp
  rw [e, MC.standardize, hm, List.getElem?_map, List.getElem?_map]
  have h := (C44_antithetic eps).2.1 i hi
  have e2 : MC.prep true false eps = MC.antithetic eps := rfl
  rw [e2] at h
  rw [h.1, h.2]
  cases eps[i]? with
  | none => rfl
  | some row =>
    simp only [Option.map_some, List.map_map, Option.some.injEq]
    refine List.map_congr_left fun x _ => ?_
    simp only [Function.comp]
    ring

/-- Non-vacuous: a two-path sample. -/
theorem C44_example : (MC.prep true false [[1, 2], [3, 4]]) = [[1, 2], [3, 4], [-1, -2], [-3, -4]] := by
  simp [MC.prep, MC.antithetic]

/-! ### Payoffs -/

/-- **C45.** Parity: on the same innovations, entry by entry, call minus put is the discounted average price less
the strike. -/
theorem C45_parity {loops n : ℕ} {S K t r b σ : ℝ} {anti stand tr : Bool} {o : MC.Opt}
    (ho : MC.new loops n S K t r b σ anti stand tr = .ok o) (k : MC.Kind) (sample : ℕ → MC.Rows)
    (p : ℕ → ℕ) (hp : ∀ i, 0 < p i) (z : (i : ℕ) → Fin (p i) → Fin n → ℝ)
    (hz : ∀ i < loops, MC.prep anti stand (sample i) = List.ofFn fun j => List.ofFn (z i j)) :
    ∃ c q, MC.price k o true sample = .ok c ∧ MC.price k o false sample = .ok q ∧
      ∀ i < loops, ∃ x y, c[i]? = some x ∧ q[i]? = some y ∧
        x - y = exp (-r * t) * ((∑ j, mcPrice k S t b σ (z i j)) / p i - K) := by
  obtain ⟨c, hc, -, hci⟩ := C43_price ho k true sample p z hz
  obtain ⟨q, hq, -, hqi⟩ := C43_price ho k false sample p z hz
  refine ⟨c, q, hc, hq, fun i hi => ⟨_, _, hci i hi, hqi i hi, ?_⟩⟩
  have hp' : (p i : ℝ) ≠ 0 := by exact_mod_cast (hp i).ne'
  simp only [mcValue, if_true, Bool.false_eq_true, if_false]
  rw [← sub_div, ← Finset.sum_sub_distrib]
  have : ∀ j : Fin (p i), exp (-r * t) * max (mcPrice k S t b σ (z i j) - K) 0
      - exp (-r * t) * max (K - mcPrice k S t b σ (z i j)) 0 = exp (-r * t) * (mcPrice k S t b σ (z i j) - K) := by
    intro j
    rw [← mul_sub]
    congr 1
    rcases le_total (mcPrice k S t b σ (z i j)) K with h | h
    · rw [max_eq_right (by linarith), max_eq_left (by linarith)]; ring
    · rw [max_eq_left (by linarith), max_eq_right (by linarith)]; ring
  rw [Finset.sum_congr rfl fun j _ => this j, ← Finset.mul_sum, Finset.sum_sub_distrib, Finset.sum_const,
    Finset.card_univ, Fintype.card_fin, nsmul_eq_mul]
  field_simp

/-- The bounds of C45 for the specification value. -/
theorem mcValue_bounds {p n : ℕ} (hp : 0 < p) (k : MC.Kind) {S K K' t r b σ : ℝ} (hS : 0 ≤ S) (hK : 0 ≤ K) (hKK : K ≤ K')
    (z : Fin p → Fin n → ℝ) :
    0 ≤ mcValue k true S K t r b σ z ∧ 0 ≤ mcValue k false S K t r b σ z ∧
    mcValue k true S K' t r b σ z ≤ mcValue k true S K t r b σ z ∧
    mcValue k false S K t r b σ z ≤ mcValue k false S K' t r b σ z ∧
    mcValue k true S K t r b σ z ≤ exp (-r * t) * ((∑ j, mcPrice k S t b σ (z j)) / p) ∧
    mcValue k false S K t r b σ z ≤ exp (-r * t) * K := by
  have hp' : (0 : ℝ) < p := by exact_mod_cast hp
  have hE := exp_pos (-r * t)
  have hP : ∀ j, 0 ≤ mcPrice k S t b σ (z j) := by
    intro j
    cases k with
    | vanilla => simp only [mcPrice, pathEnd]; positivity
    | asian => simp only [mcPrice, pathAverage]; positivity
  simp only [mcValue, if_true, Bool.false_eq_true, if_false]
  refine ⟨by positivity, by positivity, ?_, ?_, ?_, ?_⟩
  · gcongr
  · gcongr
  · rw [mul_div_assoc', Finset.mul_sum]
    gcongr with j
    exact max_le (by linarith) (hP j)
  · rw [div_le_iff₀ hp']
    calc ∑ j, exp (-r * t) * max (K - mcPrice k S t b σ (z j)) 0
        ≤ ∑ _j : Fin p, exp (-r * t) * K := by
          gcongr with j
          exact max_le (by linarith [hP j]) hK
      _ = exp (-r * t) * K * p := by rw [Finset.sum_const, Finset.card_univ, Fintype.card_fin, nsmul_eq_mul]; ring

/-- **C45.** All simulated prices are non-negative; a higher strike gives no higher call and no lower put on the same
innovations; a call is at most the discounted average price (`S, K ≥ 0`), a put at most the discounted strike. -/
theorem C45_bounds {loops n : ℕ} {S K K' t r b σ : ℝ} {anti stand tr : Bool} {o o' : MC.Opt}
    (ho : MC.new loops n S K t r b σ anti stand tr = .ok o) (ho' : MC.new loops n S K' t r b σ anti stand tr = .ok o')
    (hS : 0 ≤ S) (hK : 0 ≤ K) (hKK : K ≤ K') (k : MC.Kind) (sample : ℕ → MC.Rows)
    (p : ℕ → ℕ) (hp : ∀ i, 0 < p i) (z : (i : ℕ) → Fin (p i) → Fin n → ℝ)
    (hz : ∀ i < loops, MC.prep anti stand (sample i) = List.ofFn fun j => List.ofFn (z i j)) :
    ∃ c q c' q', MC.price k o true sample = .ok c ∧ MC.price k o false sample = .ok q ∧
      MC.price k o' true sample = .ok c' ∧ MC.price k o' false sample = .ok q' ∧
      ∀ i < loops, ∃ x y x' y', c[i]? = some x ∧ q[i]? = some y ∧ c'[i]? = some x' ∧ q'[i]? = some y' ∧
        0 ≤ x ∧ 0 ≤ y ∧ x' ≤ x ∧ y ≤ y' ∧
        x ≤ exp (-r * t) * ((∑ j, mcPrice k S t b σ (z i j)) / p i) ∧ y ≤ exp (-r * t) * K := by
  obtain ⟨c, hc, -, hci⟩ := C43_price ho k true sample p z hz
  obtain ⟨q, hq, -, hqi⟩ := C43_price ho k false sample p z hz
  obtain ⟨c', hc', -, hci'⟩ := C43_price ho' k true sample p z hz
  obtain ⟨q', hq', -, hqi'⟩ := C43_price ho' k false sample p z hz
  exact ⟨c, q, c', q', hc, hq, hc', hq', fun i hi => ⟨_, _, _, _, hci i hi, hqi i hi, hci' i hi, hqi' i hi,
    mcValue_bounds (hp i) k hS hK hKK (z i)⟩⟩

/-- Non-vacuous: a sample with one path of two steps, no variance reduction. -/
theorem C45_example : ∃ o, MC.new 3 2 100 95 1 0.05 0.05 0.2 false false false = .ok o ∧
    ∀ i < 3, MC.prep false false ((fun _ => [[0.3, -0.1]]) i) = List.ofFn fun _ : Fin 1 => List.ofFn ![0.3, -0.1] := by
  refine ⟨_, rfl, fun i _ => ?_⟩
  simp [MC.prep]

/-! ### Paths -/

/-- **C46.** The price entering the payoff of a path with innovations `z` is `S exp((b-σ²/2)t + σ√(t/n) Σ z)` for
the vanilla payoff, and the average of the prices along the path for the Asian one. -/
theorem C46_path {loops n : ℕ} {S K t r b σ : ℝ} {anti stand tr : Bool} {o : MC.Opt}
    (ho : MC.new loops n S K t r b σ anti stand tr = .ok o) (k : MC.Kind) (z : Fin n → ℝ) :
    (MC.wiener o [List.ofFn z]).map (k.price o) = [mcPrice k S t b σ z] := by
  have h := MC.price_row ho k z
  have hspec : k.spec S t b σ z = mcPrice k S t b σ z := by cases k <;> rfl
  simp only [MC.wiener, List.map_cons, List.map_nil, h, hspec]

/-- **C46.** The price at maturity does not depend on the order of the innovations. -/
theorem C46_order {n : ℕ} (S t b σ : ℝ) (z : Fin n → ℝ) (e : Equiv.Perm (Fin n)) :
    mcPrice .vanilla S t b σ (z ∘ e) = mcPrice .vanilla S t b σ z := by
  simp only [mcPrice, pathEnd, Function.comp]
  rw [Equiv.sum_comp e z]

/-- **C46.** The path price after the last step is the price at maturity. -/
theorem C46_last {n : ℕ} (S t b σ : ℝ) (z : Fin (n + 1) → ℝ) :
    S * exp (logPrice t b σ z (Fin.last n)) = pathEnd S t b σ z := by
  have : Finset.univ.filter (· ≤ Fin.last n) = Finset.univ := by ext i; simp [Fin.le_last]
  simp only [logPrice, pathEnd, this, Fin.val_last]
  congr 2
  have : ((n + 1 : ℕ) : ℝ) ≠ 0 := by positivity
  push_cast at this ⊢
  field_simp

/-- **C46.** With a single step the Asian price is the vanilla price. -/
theorem C46_one_step (S t b σ : ℝ) (z : Fin 1 → ℝ) :
    mcPrice .asian S t b σ z = mcPrice .vanilla S t b σ z := by
  simp [mcPrice, pathAverage, pathEnd, logPrice]

/-- **C46.** The Asian average lies between any lower and upper bound of the prices along the path. -/
theorem C46_average {n : ℕ} (hn : 0 < n) (S t b σ : ℝ) (z : Fin n → ℝ) {lo hi : ℝ}
    (h : ∀ j, lo ≤ S * exp (logPrice t b σ z j) ∧ S * exp (logPrice t b σ z j) ≤ hi) :
    lo ≤ mcPrice .asian S t b σ z ∧ mcPrice .asian S t b σ z ≤ hi := by
  have hn' : (0 : ℝ) < n := by exact_mod_cast hn
  simp only [mcPrice, pathAverage]
  rw [le_div_iff₀ hn', div_le_iff₀ hn']
  constructor
  · calc lo * n = ∑ _j : Fin n, lo := by rw [Finset.sum_const, Finset.card_univ, Fintype.card_fin, nsmul_eq_mul]; ring
      _ ≤ _ := Finset.sum_le_sum fun j _ => (h j).1
  · calc _ ≤ ∑ _j : Fin n, hi := Finset.sum_le_sum fun j _ => (h j).2
      _ = hi * n := by rw [Finset.sum_const, Finset.card_univ, Fintype.card_fin, nsmul_eq_mul]; ring

/-- **C46.** The log-price along a path is the sum of increments `(b-σ²/2) t/n + σ √(t/n) z`, in time order. -/
theorem C46_increment {n : ℕ} (t b σ : ℝ) (z : Fin (n + 1) → ℝ) (j : Fin n) :
    logPrice t b σ z j.succ - logPrice t b σ z j.castSucc
      = (b - σ ^ 2 / 2) * (t / (n + 1)) + σ * √(t / (n + 1)) * z j.succ := by
  have h : Finset.univ.filter (· ≤ j.succ) = insert j.succ (Finset.univ.filter (· ≤ j.castSucc)) := by
    ext i
    simp only [Finset.mem_filter, Finset.mem_univ, true_and, Finset.mem_insert, Fin.le_def, Fin.ext_iff,
      Fin.val_succ, Fin.val_castSucc]
    omega
  simp only [logPrice]
  rw [h, Finset.sum_insert (by simp [Fin.le_def])]
  have : ((n : ℝ) + 1) ≠ 0 := by positivity
  simp only [Fin.val_succ, Fin.val_castSucc]
  push_cast
  field_simp
  ring

/-! ### Trace -/

/-- The average of loops `0..i`. -/
noncomputable def runningAverage (it : List ℝ) (i : ℕ) : ℝ := (it.take (i + 1)).sum / (i + 1)

/-- **C47, part that holds.** There is one line per loop, line `i` shows `i`, the loop's average and a cumulative
average; the latter is right if and only if the later loops sum to zero, so on the last line. Missing: the
other lines, see `C47_wrong`. -/
theorem C47_lines_partial (it : List ℝ) :
    (MC.trace it).length = it.length ∧
    ∀ i x, it[i]? = some x → ∃ a, (MC.trace it)[i]? = some (i, x, a) ∧
      (a = runningAverage it i ↔ (it.drop (i + 1)).sum = 0) := by
  refine ⟨by simp [MC.trace], fun i x h => ⟨it.sum / ((i : ℝ) + 1), ?_, ?_⟩⟩
  · rw [MC.trace, List.getElem?_map, List.getElem?_zipIdx, h]
    simp
  · have hs : it.sum = (it.take (i + 1)).sum + (it.drop (i + 1)).sum := by
      rw [← List.sum_append, List.take_append_drop]
    have hi : ((i : ℝ) + 1) ≠ 0 := by positivity
    rw [runningAverage, div_left_inj' hi, hs]
    constructor <;> intro h <;> linarith

/-- **C47 fails**: with two loops averaging `1` each, the first line of the trace shows the cumulative average `2`. -/
theorem C47_wrong : (MC.trace [1, 1])[0]? = some (0, 1, 2) ∧ runningAverage [1, 1] 0 = 1 := by
  constructor
  · simp only [MC.trace, List.zipIdx_cons, List.zipIdx_nil, List.map_cons, List.map_nil]
    norm_num
  · norm_num [runningAverage]

/-- **C47.** The last line is right. -/
theorem C47_last_partial (it : List ℝ) (x : ℝ) :
    (MC.trace (it ++ [x]))[it.length]? = some (it.length, x, runningAverage (it ++ [x]) it.length) := by
  obtain ⟨a, h, hiff⟩ := (C47_lines_partial (it ++ [x])).2 it.length x (by simp)
  rw [h, hiff.2 (by simp)]

/-! ### Sobol innovations -/

theorem maxOf_lt_top {m : List (List EReal)} (h : MC.maxOf m ≠ ⊤) : ∀ row ∈ m, ∀ x ∈ row, x ≠ ⊤ := by
  intro row hr x hx e
  have hmem : x ∈ m.flatten := List.mem_flatten.2 ⟨row, hr, hx⟩
  have : ∀ l : List EReal, x ∈ l → x ≤ l.foldr max ⊥ := by
    intro l
    induction l with
    | nil => simp
    | cons y l ih =>
      intro hm
      rcases List.mem_cons.1 hm with rfl | hm
      · exact le_max_left _ _
      · exact (ih hm).trans (le_max_right _ _)
  exact h (top_le_iff.1 (e ▸ this _ hmem))

/-- **C48, part that holds.** If drawing ends, the innovations returned contain no `+∞` and at least one entry is
finite, and they are the first draw that is so. Missing: no `-∞`, see `C48_minus_infinity`. -/
theorem C48_no_infinity_partial {draw : ℕ → List (List EReal)} {m : List (List EReal)} (h : MC.Sample draw none m) :
    (∀ row ∈ m, ∀ x ∈ row, x ≠ ⊤) ∧ (∃ row ∈ m, ∃ x ∈ row, x ≠ ⊥ ∧ x ≠ ⊤) ∧ ∃ k, m = draw k := by
  obtain ⟨k, hk, hm⟩ := h
  obtain rfl : m = draw k := by simpa using hm
  have hx := hk.exit
  simp only [not_or] at hx
  refine ⟨maxOf_lt_top hx.1, ?_, k, rfl⟩
  by_contra hc
  push Not at hc
  apply hx.2
  have : ∀ l : List EReal, (∀ x ∈ l, x = ⊥) → l.foldr max ⊥ = ⊥ := by
    intro l
    induction l with
    | nil => simp
    | cons y l ih =>
      intro hl
      rw [List.foldr_cons, hl y (by simp), ih fun x hx => hl x (by simp [hx])]
      simp
  refine this _ fun x hx' => ?_
  obtain ⟨row, hr, hxr⟩ := List.mem_flatten.1 hx'
  by_contra hb
  exact maxOf_lt_top hx.1 row hr x hxr (hc row hr x hxr hb)

/-- **C48 fails**: a generator point with a zero coordinate gives `-∞`, which passes the test. (Scrambled generators
produce exact zeros with positive probability: points are multiples of `2⁻³⁰`.) -/
theorem C48_minus_infinity (q : ℝ → ℝ) :
    MC.Sample (MC.sobolScrambled q fun _ => [[0, 1 / 2]]) none [[⊥, (q (1 / 2) : EReal)]] := by
  refine ⟨0, .stop ?_, ?_⟩
  · simp [MC.maxOf, MC.sobolScrambled, MC.ppf]
  · simp [MC.sobolScrambled, MC.ppf]

/-- **C48.** Unscrambled, `mc_paths ≥ 1` rows are returned, the points `1, …, mc_paths` of the sequence mapped by
the quantile function: point `0` is skipped. -/
theorem C48_unscrambled (q : ℝ → ℝ) (pt : ℕ → List ℝ) {paths : ℕ} (hp : 0 < paths) :
    (MC.sobolPlain q pt paths).length = paths ∧
    ∀ i < paths, (MC.sobolPlain q pt paths)[i]? = some ((pt (i + 1)).map (MC.ppf q)) := by
  obtain ⟨m, rfl⟩ : ∃ m, paths = m + 1 := ⟨paths - 1, by omega⟩
  have e : MC.sobolPlain q pt (m + 1) = (List.range (m + 1)).map (fun i => (pt (i + 1)).map (MC.ppf q)) := by
    simp only [MC.sobolPlain]
    rw [List.range_succ_eq_map, List.map_cons, List.drop_one, List.tail_cons, List.map_append, List.map_map,
      List.map_map, ← List.range_succ_eq_map, List.range_succ, List.map_append]
    rfl
  rw [e]
  refine ⟨by simp, fun i hi => ?_⟩
  rw [List.getElem?_map, List.getElem?_range hi]
  rfl

/-- **C48.** If all points after the first lie strictly inside the unit cube, unscrambled innovations are all
finite, and the first draw is returned. -/
theorem C48_unscrambled_finite (q : ℝ → ℝ) (pt : ℕ → List ℝ) {paths : ℕ} (hp : 0 < paths) (hne : pt 1 ≠ [])
    (hpt : ∀ i, 0 < i → ∀ x ∈ pt i, 0 < x ∧ x < 1) :
    MC.Sample (fun _ => MC.sobolPlain q pt paths) none (MC.sobolPlain q pt paths) ∧
    ∀ row ∈ MC.sobolPlain q pt paths, ∀ x ∈ row, x ≠ ⊤ ∧ x ≠ ⊥ := by
  obtain ⟨hl, hi⟩ := C48_unscrambled q pt hp
  have hfin : ∀ row ∈ MC.sobolPlain q pt paths, ∀ x ∈ row, x ≠ ⊤ ∧ x ≠ ⊥ := by
    intro row hr x hx
    obtain ⟨i, hlt, he⟩ := List.mem_iff_getElem.1 hr
    have h2 := hi i (hl ▸ hlt)
    rw [List.getElem?_eq_getElem hlt, he, Option.some.injEq] at h2
    subst h2
    obtain ⟨u, hu, rfl⟩ := List.mem_map.1 hx
    have := hpt (i + 1) (by omega) u hu
    rw [MC.ppf, if_neg this.1.ne', if_neg this.2.ne]
    exact ⟨EReal.coe_ne_top _, EReal.coe_ne_bot _⟩
  refine ⟨⟨0, .stop ?_, by simp⟩, hfin⟩
  have hge : ∀ (l : List EReal) (x : EReal), x ∈ l → x ≤ l.foldr max ⊥ := by
    intro l x
    induction l with
    | nil => simp
    | cons y l ih =>
      intro hm
      rcases List.mem_cons.1 hm with rfl | hm
      · exact le_max_left _ _
      · exact (ih hm).trans (le_max_right _ _)
  have hlt : ∀ l : List EReal, (∀ x ∈ l, x ≠ ⊤) → l.foldr max ⊥ ≠ ⊤ := by
    intro l
    induction l with
    | nil => simp
    | cons y l ih =>
      intro hm
      rw [List.foldr_cons]
      exact (max_lt (lt_top_iff_ne_top.2 (hm y (by simp)))
        (lt_top_iff_ne_top.2 (ih fun x hx => hm x (by simp [hx])))).ne
  rw [not_or]
  constructor
  · refine hlt _ fun x hx => ?_
    obtain ⟨row, hr, hxr⟩ := List.mem_flatten.1 hx
    exact (hfin row hr x hxr).1
  · obtain ⟨u, l, hul⟩ := List.exists_cons_of_ne_nil hne
    have h0 := hi 0 hp
    have hr : (pt 1).map (MC.ppf q) ∈ MC.sobolPlain q pt paths := List.mem_of_getElem? h0
    have hx : MC.ppf q u ∈ (pt 1).map (MC.ppf q) := List.mem_map.2 ⟨u, by simp [hul], rfl⟩
    have h1 := hge _ _ (List.mem_flatten.2 ⟨_, hr, hx⟩)
    intro h2
    rw [MC.maxOf] at h2
    rw [h2, le_bot_iff] at h1
    exact (hfin _ hr _ hx).2 h1

/-- **C48.** Pregenerated innovations are returned unchanged. -/
theorem C48_eps {draw : ℕ → List (List EReal)} {eps m : List (List EReal)} (h : MC.Sample draw (some eps) m) :
    m = eps := by
  obtain ⟨k, -, hm⟩ := h
  simpa using hm

/-- Non-vacuous: the first points of the one-dimensional Sobol sequence. -/
theorem C48_example (q : ℝ → ℝ) :
    MC.sobolPlain q (fun i => if i = 0 then [0] else [1 / 2]) 2 = [[(q (1 / 2) : EReal)], [(q (1 / 2) : EReal)]] := by
  simp [MC.sobolPlain, MC.ppf, List.range_succ]

end Verif.Props
