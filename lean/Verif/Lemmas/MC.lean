import Verif.Model.MC
import Verif.Spec.MonteCarlo

/-! Lemmas about the Monte Carlo model: the loop, cumulative sums, means, and prices of the rows. -/
namespace Verif.MC
open Real Verif.Spec

theorem sim_ok {E P A : Type} (zero : A) (isInf : A → Bool) (mean : P → A) (prep : E → E) (pay : E → P) (n : ℕ)
    (sample : ℕ → E) (h : ∀ i < n, isInf (mean (pay (prep (sample i)))) = false) :
    sim zero isInf mean prep pay n sample = .ok ((List.range n).map fun i => mean (pay (prep (sample i)))) := by
  have key : ∀ k ≤ n, (List.range k).foldlM (m := Except (E × P)) (fun iteration i =>
      let eps := prep (sample i)
      let payoff := pay eps
      let tmp := mean payoff
      if isInf tmp then .error (eps, payoff)
      else .ok (iteration.set i tmp)) (List.replicate n zero)
      = .ok ((List.range k).map (fun i => mean (pay (prep (sample i)))) ++ List.replicate (n - k) zero) := by
    intro k hk
    induction k with
    | zero => simp [pure, Except.pure]
    | succ k ih =>
      rw [List.range_succ, List.foldlM_append, ih (by omega)]
      simp only [bind, Except.bind, List.foldlM_cons, List.foldlM_nil, h k (by omega), Bool.false_eq_true,
        if_false, pure, Except.pure]
      congr 1
      have e : n - k = (n - (k + 1)) + 1 := by omega
      rw [List.set_append, if_neg (by simp), e, List.replicate_succ]
      simp
  have := key n le_rfl
  simpa [sim] using this

theorem sim_inf {E P A : Type} (zero : A) (isInf : A → Bool) (mean : P → A) (prep : E → E) (pay : E → P) (n : ℕ)
    (sample : ℕ → E) {i : ℕ} (hi : i < n) (hlt : ∀ j < i, isInf (mean (pay (prep (sample j)))) = false)
    (hinf : isInf (mean (pay (prep (sample i)))) = true) :
    sim zero isInf mean prep pay n sample = .error (prep (sample i), pay (prep (sample i))) := by
  unfold sim
  generalize List.replicate n zero = init
  obtain ⟨m, rfl⟩ : ∃ m, n = i + (m + 1) := ⟨n - i - 1, by omega⟩
  rw [List.range_add, List.foldlM_append, List.range_succ_eq_map, List.map_cons]
  have key : ∀ k ≤ i, ∀ init : List A, ∃ s, (List.range k).foldlM (m := Except (E × P)) (fun iteration i =>
      let eps := prep (sample i)
      let payoff := pay eps
      let tmp := mean payoff
      if isInf tmp then .error (eps, payoff)
      else .ok (iteration.set i tmp)) init = .ok s := by
    intro k hk init
    induction k with
    | zero => exact ⟨init, by simp [pure, Except.pure]⟩
    | succ k ih =>
      obtain ⟨s, hs⟩ := ih (by omega)
      rw [List.range_succ, List.foldlM_append, hs]
      simp [bind, Except.bind, hlt k (by omega), pure, Except.pure]
  obtain ⟨s, hs⟩ := key i le_rfl init
  rw [hs]
  simp [bind, Except.bind, hinf, List.foldlM_cons]

theorem cumsum_ofFn {n : ℕ} (a : ℝ) (w : Fin n → ℝ) :
    cumsum a (List.ofFn w) = List.ofFn (fun j => a + ∑ i ∈ Finset.univ.filter (· ≤ j), w i) := by
  induction n generalizing a with
  | zero => simp [cumsum]
  | succ n ih =>
    rw [List.ofFn_succ, cumsum, ih, List.ofFn_succ]
    congr 1
    · have : Finset.univ.filter (· ≤ (0 : Fin (n + 1))) = {0} := by
        ext i; simp
      rw [this, Finset.sum_singleton]
    · congr 1
      funext j
      have : ∑ i ∈ Finset.univ.filter (· ≤ j.succ), w i = w 0 + ∑ i ∈ Finset.univ.filter (· ≤ j), w i.succ := by
        rw [Finset.sum_filter, Finset.sum_filter, Fin.sum_univ_succ]
        simp [Fin.succ_le_succ_iff]
      rw [this, add_assoc]

theorem mean_ofFn {n : ℕ} (f : Fin n → ℝ) : mean (List.ofFn f) = (∑ i, f i) / n := by
  rw [mean, List.sum_ofFn, List.length_ofFn]

theorem sum_map_ofFn {n : ℕ} (f : ℝ → ℝ) (z : Fin n → ℝ) : (List.ofFn z).map f = List.ofFn (fun i => f (z i)) := by
  rw [List.map_ofFn]; rfl

/-- Specification price of a path. -/
noncomputable def Kind.spec (k : Kind) {n : ℕ} (S t b σ : ℝ) (z : Fin n → ℝ) : ℝ :=
  match k with
  | .vanilla => pathEnd S t b σ z
  | .asian => pathAverage S t b σ z

theorem card_le_fin {n : ℕ} (j : Fin n) : (Finset.univ.filter (· ≤ j)).card = (j : ℕ) + 1 := by
  have : Finset.univ.filter (· ≤ j) = Finset.Iic j := by ext; simp
  rw [this, Fin.card_Iic]

theorem price_row {loops n : ℕ} {S K t r b σ : ℝ} {anti stand tr : Bool} {o : Opt}
    (ho : new loops n S K t r b σ anti stand tr = .ok o) (k : Kind) (z : Fin n → ℝ) :
    k.price o ((List.ofFn z).map (fun e => (o.b - o.sigma ^ 2 / 2) * o.dt + o.sigma * √o.dt * e))
      = k.spec S t b σ z := by
  unfold new at ho
  split_ifs at ho with hn
  cases ho
  have hn' : (n : ℝ) ≠ 0 := by exact_mod_cast hn
  rw [sum_map_ofFn]
  cases k with
  | vanilla =>
    simp only [Kind.price, Kind.spec, vanillaPrice, pathEnd, List.sum_ofFn, Finset.sum_add_distrib,
      Finset.sum_const, Finset.card_univ, Fintype.card_fin, nsmul_eq_mul, ← Finset.mul_sum]
    congr 2
    field_simp
  | asian =>
    simp only [Kind.price, Kind.spec, asianPrice, pathAverage, cumsum_ofFn, sum_map_ofFn, mean_ofFn, zero_add]
    congr 1
    refine Finset.sum_congr rfl fun j _ => ?_
    simp only [Finset.sum_add_distrib, Finset.sum_const, card_le_fin, nsmul_eq_mul, ← Finset.mul_sum, logPrice]
    congr 2
    push_cast
    field_simp

theorem payoff_rows {loops n p : ℕ} {S K t r b σ : ℝ} {anti stand tr : Bool} {o : Opt}
    (ho : new loops n S K t r b σ anti stand tr = .ok o) (k : Kind) (call : Bool) (z : Fin p → Fin n → ℝ) :
    payoff k o call (List.ofFn fun i => List.ofFn (z i))
      = List.ofFn fun i => exp (-r * t) *
        (if call then max (k.spec S t b σ (z i) - K) 0 else max (K - k.spec S t b σ (z i)) 0) := by
  have hp := fun i => price_row ho k (z i)
  have h2 : o.r = r ∧ o.t = t ∧ o.K = K := by
    unfold new at ho
    split_ifs at ho with hn
    cases ho
    exact ⟨rfl, rfl, rfl⟩
  simp only [payoff, wiener, List.map_ofFn, Function.comp_def] at hp ⊢
  simp only [hp, h2.1, h2.2.1, h2.2.2]

end Verif.MC
