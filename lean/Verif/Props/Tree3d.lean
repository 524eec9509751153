import Verif.Lemmas.Tree3d
import Verif.Lemmas.TreeReal
import Mathlib.Analysis.SpecialFunctions.Trigonometric.Series

/-! C29–C34: options on two assets. -/
namespace Verif.Props
open Real Spec.TwoAsset _root_.Verif.Tree3d Py
open _root_.Verif.Tree (zOf)

/-- `f` is the payoff used by the option for a call (put), as a function of the two asset prices.
`C31_payoffs` says which function this is. -/
def PaysOff (o : Opt) (isCall : Bool) (f : ℝ → ℝ → ℝ) : Prop :=
  ∀ s1 s2, payoff o.option (zOf isCall) s1 s2 o.Q1 o.Q2 o.K o.K2 = .ok (f s1 s2)

/-- First asset at step `m` after `j` up moves. -/
noncomputable def asset1 (o : Opt) (m j : ℕ) : ℝ :=
  o.S1 * exp ((o.b1 - o.sigma1 ^ 2 / 2) * (m * (o.t / o.n)) + o.sigma1 * ((2 * j - m) * √(o.t / o.n)))

/-- Second asset at step `m` after `j` up moves of the first and `i` of the second factor. -/
noncomputable def asset2 (o : Opt) (m j i : ℕ) : ℝ :=
  o.S2 * exp ((o.b2 - o.sigma2 ^ 2 / 2) * (m * (o.t / o.n))
    + o.sigma2 * (o.rho * ((2 * j - m) * √(o.t / o.n)) + √(1 - o.rho ^ 2) * ((2 * i - m) * √(o.t / o.n))))

theorem node1_eq (o : Opt) {m j : ℕ} (h : j ≤ m) : o.node1 m j = asset1 o m j := by
  unfold Opt.node1 asset1 Opt.u Opt.d Opt.mu1 Opt.dt
  rw [mul_assoc, ← exp_nat_mul, ← exp_nat_mul, ← exp_add]
  congr 2
  rw [Nat.cast_sub h]; ring

theorem node2_eq (o : Opt) (m j i : ℕ) : o.node2 m j i = asset2 o m j i := by
  unfold Opt.node2 asset2 Opt.mu2 Opt.dt
  simp only
  rw [mul_assoc, ← exp_add]
  congr 2
  ring

theorem pay_eq {o : Opt} {isCall : Bool} {f : ℝ → ℝ → ℝ} (hf : PaysOff o isCall f) :
    ∀ m ≤ o.n, ∀ j ≤ m, ∀ i ≤ m, o.pay isCall m j i = .ok (f (asset1 o m j) (asset2 o m j i)) := by
  intro m _ j hj i _
  unfold Opt.pay
  rw [node1_eq o hj, node2_eq, hf]

theorem price_eq {o : Opt} (hn : 0 < o.n) {isCall : Bool} {f : ℝ → ℝ → ℝ} (hf : PaysOff o isCall f)
    {V : ℕ → ℕ → ℕ → ℝ} (hV : IsValue (fun m j i => f (asset1 o m j) (asset2 o m j i))
      (o.otype = "american") (exp (-o.r * (o.t / o.n))) o.n V) : price o isCall = .ok (V 0 0 0) := by
  rw [price, if_neg hn.ne']
  exact calcPrice_ok (pay_eq hf) hV

theorem price_eq' {o : Opt} (hn : 0 < o.n) {isCall am : Bool} (ham : decide (o.otype = "american") = am)
    {f : ℝ → ℝ → ℝ} (hf : PaysOff o isCall f) {V : ℕ → ℕ → ℕ → ℝ}
    (hV : IsValue (fun m j i => f (asset1 o m j) (asset2 o m j i)) am (exp (-o.r * (o.t / o.n))) o.n V) :
    price o isCall = .ok (V 0 0 0) ∧
      ∃ M, priceTree o isCall = .ok M ∧ Holds o.n M (fun a b => V (max a b) a b) := by
  subst ham
  refine ⟨price_eq hn hf hV, ?_⟩
  rw [priceTree, if_neg hn.ne']
  exact calcTree_ok (pay_eq hf) hV

/-- A worked option: `BinomialSpreadOption(S1=122, S2=120, K=3, t=0.1, r=0.1, b1=0, b2=0, sigma1=0.2,
sigma2=0.2, rho=-0.5, n=100)`. -/
noncomputable def exampleSpread (otype : String) : Opt :=
  { S1 := 122, S2 := 120, t := 1 / 10, r := 1 / 10, b1 := 0, b2 := 0, sigma1 := 1 / 5, sigma2 := 1 / 5,
    rho := -1 / 2, K := some 3, K2 := none, Q1 := 1, Q2 := 1, option := .spread, otype := otype, n := 100 }

example (otype : String) :
    PaysOff (exampleSpread otype) true (fun s1 s2 => documented 1 true (1 * s1) (1 * s2) 3 0) := by
  intro s1 s2
  simp [payoff, exampleSpread, num, zOf, documented, bind, Except.bind, pure, Except.pure]

/-! ### C29 -/

/-- C29. The European price is the discounted plain average over all `4ⁿ` pairs of up-move sets
`A, B ⊆ {0,…,n-1}` of the payoff at the two terminal prices. -/
theorem C29_expectation (o : Opt) (hn : 0 < o.n) (hE : o.otype ≠ "american") (isCall : Bool)
    (f : ℝ → ℝ → ℝ) (hf : PaysOff o isCall f) :
    price o isCall = .ok (exp (-o.r * o.t) * (∑ A ∈ (Finset.range o.n).powerset,
      ∑ B ∈ (Finset.range o.n).powerset,
        f (o.S1 * exp ((o.b1 - o.sigma1 ^ 2 / 2) * o.t + o.sigma1 * ((2 * A.card - o.n) * √(o.t / o.n))))
          (o.S2 * exp ((o.b2 - o.sigma2 ^ 2 / 2) * o.t + o.sigma2 * (o.rho * ((2 * A.card - o.n) * √(o.t / o.n))
            + √(1 - o.rho ^ 2) * ((2 * B.card - o.n) * √(o.t / o.n)))))) / 4 ^ o.n) := by
  obtain ⟨V, hV⟩ := exists_value (fun m j i => f (asset1 o m j) (asset2 o m j i)) (o.otype = "american")
    (exp (-o.r * (o.t / o.n))) o.n
  rw [price_eq hn hf hV]
  simp only [hE, decide_false] at hV
  rw [value_european hV 0 (by omega) 0 le_rfl 0 le_rfl]
  simp only [zero_add, Nat.sub_zero]
  rw [average_paths, exp_div_pow _ _ hn.ne']
  have : (o.n : ℝ) * (o.t / o.n) = o.t := mul_div_cancel₀ _ (by exact_mod_cast hn.ne')
  simp only [asset1, asset2, this]

/-! ### C30 -/

/-- C30. The American price is at least the European price and at least the payoff at inception, and the same
holds for every cell of the returned matrices (cell `(j,i)` is node `(j,i)` of step `max j i`). -/
theorem C30_american_dominates (o : Opt) (hn : 0 < o.n) (isCall : Bool) (f : ℝ → ℝ → ℝ)
    (hf : PaysOff o isCall f) :
    ∃ A E MA ME, price { o with otype := "american" } isCall = .ok A ∧
      price { o with otype := "european" } isCall = .ok E ∧
      priceTree { o with otype := "american" } isCall = .ok MA ∧
      priceTree { o with otype := "european" } isCall = .ok ME ∧
      E ≤ A ∧ f o.S1 o.S2 ≤ A ∧
      ∀ j ≤ o.n, ∀ i ≤ o.n, ME.entry j i ≤ MA.entry j i ∧
        f (asset1 o (max j i) j) (asset2 o (max j i) j i) ≤ MA.entry j i := by
  let P : ℕ → ℕ → ℕ → ℝ := fun m j i => f (asset1 o m j) (asset2 o m j i)
  obtain ⟨V, hV⟩ := exists_value P true (exp (-o.r * (o.t / o.n))) o.n
  obtain ⟨W, hW⟩ := exists_value P false (exp (-o.r * (o.t / o.n))) o.n
  let oA : Opt := { o with otype := "american" }
  let oE : Opt := { o with otype := "european" }
  have fA : PaysOff oA isCall f := hf
  have fE : PaysOff oE isCall f := hf
  obtain ⟨p1, MA, a1, a2⟩ := price_eq' (o := oA) (am := true) hn (by simp [oA]) fA (V := V) hV
  obtain ⟨p2, ME, e1, e2⟩ := price_eq' (o := oE) (am := false) hn (by simp [oE]) fE (V := W) hW
  have hD : 0 ≤ exp (-o.r * (o.t / o.n)) := (exp_pos _).le
  refine ⟨V 0 0 0, W 0 0 0, MA, ME, p1, p2, a1, e1,
    value_american_ge hV hW hD 0 (by omega) 0 le_rfl 0 le_rfl, ?_, ?_⟩
  · have := value_american_ge_pay hV 0 (by omega) 0 le_rfl 0 le_rfl
    simpa [P, asset1, asset2] using this
  · intro j hj i hi
    rw [a2.entry j hj i hi, e2.entry j hj i hi]
    have hj' : j ≤ o.n := hj
    have hi' : i ≤ o.n := hi
    exact ⟨value_american_ge hV hW hD (max j i) (by omega) j (le_max_left _ _) i (le_max_right _ _),
      value_american_ge_pay hV (max j i) (by omega) j (le_max_left _ _) i (le_max_right _ _)⟩

/-! ### C31 -/

/-- Strikes needed by the payoff are present. -/
def HasStrikes (code : Code) (K K2 : Option ℝ) : Prop :=
  (code ≠ .exchange → K.isSome) ∧ (code = .dual ∨ code = .reverseDual → K2.isSome)

/-- C31, the part that holds. Full statement: for each of the nine option numbers the payoff is the
documented formula. True for all except the relative-performance option (8) and the put of the exchange
option (7); those are refuted below. -/
theorem C31_payoffs_partial (code : Code) (isCall : Bool) (S1 S2 Q1 Q2 : ℝ) (K K2 : Option ℝ)
    (hs : HasStrikes code K K2) (h8 : code ≠ .outperformance) (h7 : code = .exchange → isCall = true) :
    payoff code (zOf isCall) S1 S2 Q1 Q2 K K2
      = .ok (documented code.number isCall (Q1 * S1) (Q2 * S2) (K.getD 0) (K2.getD 0)) := by
  obtain ⟨hK, hK2⟩ := hs
  have two : ∀ a b : ℝ, max (max 0 a) (max 0 b) = max 0 (max a b) := fun a b => by
    rw [max_max_max_comm, max_self]
  cases code
  case outperformance => exact absurd rfl h8
  case exchange =>
    rw [h7 rfl]
    simp [payoff, documented, Code.number, zOf, pure, Except.pure]
  case dual =>
    obtain ⟨k, rfl⟩ := Option.isSome_iff_exists.1 (hK (by simp))
    obtain ⟨k2, rfl⟩ := Option.isSome_iff_exists.1 (hK2 (by simp))
    cases isCall <;>
      simp [payoff, documented, Code.number, zOf, num, bind, Except.bind, pure, Except.pure, two]
  case reverseDual =>
    obtain ⟨k, rfl⟩ := Option.isSome_iff_exists.1 (hK (by simp))
    obtain ⟨k2, rfl⟩ := Option.isSome_iff_exists.1 (hK2 (by simp))
    cases isCall <;>
      simp [payoff, documented, Code.number, zOf, num, bind, Except.bind, pure, Except.pure, two]
  all_goals
    obtain ⟨k, rfl⟩ := Option.isSome_iff_exists.1 (hK (by simp))
    cases isCall
    all_goals
      simp only [payoff, documented, Code.number, zOf, num, bind, Except.bind, pure, Except.pure,
        Option.getD_some, Bool.false_eq_true, if_false, if_true]
      congr 2
      ring

example : HasStrikes .reverseDual (some 100) (some 95) := ⟨by simp, by simp⟩

/-- C31 (finding). Number 8 is documented as `Q1*S1/(Q2*S2) - K` but the code computes
`(Q1*S1/Q2)*S2 - K`; the two differ whenever `Q1 S1 ≠ 0`, `S2 > 0`, `S2 ≠ 1` for a zero strike. -/
theorem C31_outperformance_wrong (S1 S2 Q1 Q2 : ℝ) (hS1 : 0 < S1) (hS2 : 0 < S2) (hQ1 : 0 < Q1) (hQ2 : 0 < Q2)
    (h1 : S2 ≠ 1) :
    payoff .outperformance (zOf true) S1 S2 Q1 Q2 (some 0) none
      ≠ .ok (documented 8 true (Q1 * S1) (Q2 * S2) 0 0) := by
  simp only [payoff, documented, zOf, num, bind, Except.bind, pure, Except.pure, if_true, one_mul, sub_zero]
  intro h
  injection h with h
  rw [max_eq_right (by positivity), max_eq_right (by positivity)] at h
  field_simp at h
  have h2 : (S2 - 1) * (S2 + 1) = 0 := by nlinarith
  rcases mul_eq_zero.1 h2 with h | h
  · exact h1 (by linarith)
  · linarith

/-- C31 (finding). The put on an exchange option is not the documented `max(0, Q2*S2 - Q1*S1)` but the
reversed exchange. -/
theorem C31_exchange_put (S1 S2 Q1 Q2 : ℝ) (K K2 : Option ℝ) :
    payoff .exchange (zOf false) S1 S2 Q1 Q2 K K2
      = .ok (documented 7 true (Q2 * S2) (Q1 * S1) 0 0) := by
  simp [payoff, documented, zOf, pure, Except.pure]

/-- C31. A missing strike is refused with `TypeError`: no price is ever computed from `None`. -/
theorem C31_missing_strike (o : Opt) (hn : 0 < o.n) (isCall : Bool) (hs : ¬ HasStrikes o.option o.K o.K2) :
    price o isCall = .error .typeError ∧ priceTree o isCall = .error .typeError := by
  have h : ∀ j i, o.pay isCall o.n j i = .error .typeError := by
    intro j i
    unfold Opt.pay
    generalize o.node1 o.n j = s1
    generalize o.node2 o.n j i = s2
    unfold HasStrikes at hs
    rcases o with ⟨_, _, _, _, _, _, _, _, _, K, K2, _, _, code, _, _⟩
    cases code <;> cases K <;> cases K2 <;> simp [payoff, num, bind, Except.bind] at hs ⊢
  have h2 : fillTerminal (o.pay isCall) o.n = .error .typeError := by
    unfold fillTerminal
    rw [List.range_succ_eq_map, List.foldlM_cons, List.foldlM_cons]
    simp [h, bind, Except.bind]
  have h3 : calcTree (o.pay isCall) (o.otype = "american") (exp (-o.r * o.dt)) o.n = .error .typeError := by
    simp [calcTree, h2, bind, Except.bind]
  constructor
  · rw [price, if_neg hn.ne', calcPrice, h3]; rfl
  · rw [priceTree, if_neg hn.ne', h3]

/-! ### C32 -/

theorem sum_choose_exp (n : ℕ) (x : ℝ) :
    (∑ j ∈ Finset.range (n + 1), (n.choose j : ℝ) * exp ((2 * j - n) * x)) / 2 ^ n = cosh x ^ n := by
  have : (∑ j ∈ Finset.range (n + 1), (n.choose j : ℝ) * exp ((2 * j - n) * x)) = (exp x + exp (-x)) ^ n := by
    rw [add_pow]
    refine Finset.sum_congr rfl fun j hj => ?_
    have hj' : j ≤ n := by have := Finset.mem_range.1 hj; omega
    rw [← exp_nat_mul, ← exp_nat_mul, ← exp_add, mul_comm, Nat.cast_sub hj']
    congr 2; ring
  rw [this, cosh_eq, div_pow]

theorem average_asset1 (o : Opt) (hn : 0 < o.n) (D : ℝ) :
    average D o.n (fun j _ => asset1 o o.n j)
      = D ^ o.n * (o.S1 * exp ((o.b1 - o.sigma1 ^ 2 / 2) * o.t) * cosh (o.sigma1 * √(o.t / o.n)) ^ o.n) := by
  have ht : (o.n : ℝ) * (o.t / o.n) = o.t := mul_div_cancel₀ _ (by exact_mod_cast hn.ne')
  have h : ∀ j ≤ o.n, ∀ i ≤ o.n, asset1 o o.n j = (o.S1 * exp ((o.b1 - o.sigma1 ^ 2 / 2) * o.t)
      * exp ((2 * j - o.n) * (o.sigma1 * √(o.t / o.n)))) * 1 := by
    intro j _ i _
    unfold asset1
    rw [ht, exp_add]; ring_nf
  rw [average_congr D (f := fun j _ => asset1 o o.n j) h, average_mul, sum_choose_one, mul_one]
  congr 1
  rw [← sum_choose_exp, ← mul_div_assoc, Finset.mul_sum]
  congr 1
  exact Finset.sum_congr rfl fun j _ => by ring

theorem average_asset2 (o : Opt) (hn : 0 < o.n) (D : ℝ) :
    average D o.n (fun j i => asset2 o o.n j i)
      = D ^ o.n * (o.S2 * exp ((o.b2 - o.sigma2 ^ 2 / 2) * o.t)
        * (cosh (o.sigma2 * o.rho * √(o.t / o.n)) * cosh (o.sigma2 * √(1 - o.rho ^ 2) * √(o.t / o.n))) ^ o.n) := by
  have ht : (o.n : ℝ) * (o.t / o.n) = o.t := mul_div_cancel₀ _ (by exact_mod_cast hn.ne')
  have h : ∀ j ≤ o.n, ∀ i ≤ o.n, asset2 o o.n j i = (o.S2 * exp ((o.b2 - o.sigma2 ^ 2 / 2) * o.t)
      * exp ((2 * j - o.n) * (o.sigma2 * o.rho * √(o.t / o.n))))
      * exp ((2 * i - o.n) * (o.sigma2 * √(1 - o.rho ^ 2) * √(o.t / o.n))) := by
    intro j _ i _
    unfold asset2
    rw [ht, mul_assoc o.S2, mul_assoc o.S2, ← exp_add, ← exp_add]
    congr 2; ring
  rw [average_congr D (f := fun j i => asset2 o o.n j i) h, average_mul, sum_choose_exp]
  rw [mul_pow, ← sum_choose_exp o.n (o.sigma2 * o.rho * √(o.t / o.n))]
  have h2 : ∑ j ∈ Finset.range (o.n + 1), (o.n.choose j : ℝ) * (o.S2 * exp ((o.b2 - o.sigma2 ^ 2 / 2) * o.t)
      * exp ((2 * j - o.n) * (o.sigma2 * o.rho * √(o.t / o.n))))
      = (o.S2 * exp ((o.b2 - o.sigma2 ^ 2 / 2) * o.t)) * ∑ j ∈ Finset.range (o.n + 1), (o.n.choose j : ℝ) *
        exp ((2 * j - o.n) * (o.sigma2 * o.rho * √(o.t / o.n))) := by
    rw [Finset.mul_sum]; exact Finset.sum_congr rfl fun j _ => by ring
  rw [h2]; ring

theorem european_average (o : Opt) (hn : 0 < o.n) (hE : o.otype ≠ "american") (isCall : Bool)
    (f : ℝ → ℝ → ℝ) (hf : PaysOff o isCall f) :
    price o isCall = .ok (average (exp (-o.r * (o.t / o.n))) o.n
      (fun j i => f (asset1 o o.n j) (asset2 o o.n j i))) := by
  obtain ⟨V, hV⟩ := exists_value (fun m j i => f (asset1 o m j) (asset2 o m j i)) (o.otype = "american")
    (exp (-o.r * (o.t / o.n))) o.n
  rw [price_eq hn hf hV]
  simp only [hE, decide_false] at hV
  rw [value_european hV 0 (by omega) 0 le_rfl 0 le_rfl]
  simp

/-- C32. European spread call minus put is the discounted lattice forward; the lattice growth of each leg is
its drift times `cosh` factors. -/
theorem C32_parity (o : Opt) (hn : 0 < o.n) (hE : o.otype ≠ "american") (hc : o.option = .spread) (k : ℝ)
    (hk : o.K = some k) :
    ∃ x y, price o true = .ok x ∧ price o false = .ok y ∧
      x - y = o.Q1 * (o.S1 * exp ((o.b1 - o.sigma1 ^ 2 / 2 - o.r) * o.t) * cosh (o.sigma1 * √(o.t / o.n)) ^ o.n)
        - o.Q2 * (o.S2 * exp ((o.b2 - o.sigma2 ^ 2 / 2 - o.r) * o.t)
          * (cosh (o.sigma2 * o.rho * √(o.t / o.n)) * cosh (o.sigma2 * √(1 - o.rho ^ 2) * √(o.t / o.n))) ^ o.n)
        - k * exp (-o.r * o.t) := by
  have hf1 : PaysOff o true (fun s1 s2 => max 0 (o.Q1 * s1 - o.Q2 * s2 - k)) := by
    intro s1 s2; simp [payoff, hc, hk, num, zOf, bind, Except.bind, pure, Except.pure]
  have hf2 : PaysOff o false (fun s1 s2 => max 0 (k - (o.Q1 * s1 - o.Q2 * s2))) := by
    intro s1 s2; simp [payoff, hc, hk, num, zOf, bind, Except.bind, pure, Except.pure]
  refine ⟨_, _, european_average o hn hE true _ hf1, european_average o hn hE false _ hf2, ?_⟩
  set D := exp (-o.r * (o.t / o.n)) with hD
  have hDn : D ^ o.n = exp (-o.r * o.t) := exp_div_pow _ _ hn.ne'
  rw [average_sub]
  have hpt : ∀ j ≤ o.n, ∀ i ≤ o.n, max 0 (o.Q1 * asset1 o o.n j - o.Q2 * asset2 o o.n j i - k)
      - max 0 (k - (o.Q1 * asset1 o o.n j - o.Q2 * asset2 o o.n j i))
      = (o.Q1 * asset1 o o.n j - o.Q2 * asset2 o o.n j i) - k := by
    intro j _ i _
    generalize o.Q1 * asset1 o o.n j - o.Q2 * asset2 o o.n j i = x
    rcases le_total x k with h | h
    · rw [max_eq_left (by linarith), max_eq_right (by linarith)]; ring
    · rw [max_eq_right (by linarith), max_eq_left (by linarith)]; ring
  rw [average_congr D hpt, ← average_sub D o.n (fun j i => o.Q1 * asset1 o o.n j - o.Q2 * asset2 o o.n j i),
    ← average_sub D o.n (fun j _ => o.Q1 * asset1 o o.n j), average_const]
  have hsc : ∀ (c : ℝ) (g : ℕ → ℕ → ℝ), average D o.n (fun j i => c * g j i) = c * average D o.n g := by
    intro c g
    have h3 : ∑ j ∈ Finset.range (o.n + 1), ∑ i ∈ Finset.range (o.n + 1),
        (o.n.choose j : ℝ) * (o.n.choose i : ℝ) * (c * g j i)
        = c * ∑ j ∈ Finset.range (o.n + 1), ∑ i ∈ Finset.range (o.n + 1),
          (o.n.choose j : ℝ) * (o.n.choose i : ℝ) * g j i := by
      simp only [Finset.mul_sum]
      exact Finset.sum_congr rfl fun j _ => Finset.sum_congr rfl fun i _ => by ring
    unfold average
    rw [h3]; ring
  rw [hsc o.Q1 (fun j _ => asset1 o o.n j), hsc o.Q2 (fun j i => asset2 o o.n j i), average_asset1 o hn,
    average_asset2 o hn, hDn]
  have e1 : exp ((o.b1 - o.sigma1 ^ 2 / 2 - o.r) * o.t)
      = exp (-o.r * o.t) * exp ((o.b1 - o.sigma1 ^ 2 / 2) * o.t) := by rw [← exp_add]; congr 1; ring
  have e2 : exp ((o.b2 - o.sigma2 ^ 2 / 2 - o.r) * o.t)
      = exp (-o.r * o.t) * exp ((o.b2 - o.sigma2 ^ 2 / 2) * o.t) := by rw [← exp_add]; congr 1; ring
  rw [e1, e2]; ring

/-- The usual forward is an upper bound for the lattice growth of either leg (so the lattice forward of a leg
never exceeds `S e^{(b-r)t}`). -/
theorem C32_drift_factor (σ a dt : ℝ) (n : ℕ) (hdt : 0 ≤ dt) (ha : a ^ 2 ≤ 1) :
    (cosh (σ * a * √dt) * cosh (σ * √(1 - a ^ 2) * √dt)) ^ n ≤ exp (σ ^ 2 / 2 * (n * dt)) := by
  have h1 := cosh_le_exp_half_sq (σ * a * √dt)
  have h2 := cosh_le_exp_half_sq (σ * √(1 - a ^ 2) * √dt)
  have h3 : cosh (σ * a * √dt) * cosh (σ * √(1 - a ^ 2) * √dt) ≤ exp (σ ^ 2 / 2 * dt) := by
    calc _ ≤ exp ((σ * a * √dt) ^ 2 / 2) * exp ((σ * √(1 - a ^ 2) * √dt) ^ 2 / 2) :=
          mul_le_mul h1 h2 (cosh_pos _).le (exp_pos _).le
      _ = exp (σ ^ 2 / 2 * dt) := by
          rw [← exp_add, mul_pow, mul_pow, mul_pow, mul_pow, sq_sqrt hdt, sq_sqrt (by linarith)]
          congr 1; ring
  calc _ ≤ exp (σ ^ 2 / 2 * dt) ^ n :=
        pow_le_pow_left₀ (mul_nonneg (cosh_pos _).le (cosh_pos _).le) h3 n
    _ = _ := by rw [← exp_nat_mul]; congr 1; ring

example : (exampleSpread "european").rho ^ 2 ≤ 1 := by norm_num [exampleSpread]

/-! ### C33 -/

/-- C33. `call(tree=True)`/`put(tree=True)` is `(n+2)×(n+2)`: cell `(j,i)` holds the value of node `(j,i)` of
step `max j i`, the last row and column are zero, and `[0,0]` is the price. -/
theorem C33_matrix (o : Opt) (hn : 0 < o.n) (isCall : Bool) (f : ℝ → ℝ → ℝ) (hf : PaysOff o isCall f) :
    ∃ V M, IsValue (fun m j i => f (asset1 o m j) (asset2 o m j i)) (o.otype = "american")
        (exp (-o.r * (o.t / o.n))) o.n V ∧
      priceTree o isCall = .ok M ∧ M.rows = o.n + 2 ∧ M.cols = o.n + 2 ∧
      (∀ j ≤ o.n, ∀ i ≤ o.n, M.entry j i = V (max j i) j i) ∧
      (∀ j i, o.n < j ∨ o.n < i → M.entry j i = 0) ∧ price o isCall = M.get 0 0 := by
  obtain ⟨V, hV⟩ := exists_value (fun m j i => f (asset1 o m j) (asset2 o m j i)) (o.otype = "american")
    (exp (-o.r * (o.t / o.n))) o.n
  obtain ⟨M, h1, h2⟩ := calcTree_ok (pay_eq hf) hV
  refine ⟨V, M, hV, ?_, h2.rows, h2.cols, h2.entry, h2.border, ?_⟩
  · rw [priceTree, if_neg hn.ne']; exact h1
  · rw [price_eq hn hf hV, h2.get (by omega) (by omega)]; rfl

/-- The model runs: an American two-step lattice with payoff `m + j*i`. -/
example : (calcTree (R := ℚ) (fun m j i => .ok (m + j * i)) true (1 / 2) 2).map
    (fun M => (List.range 4).map fun a => (List.range 4).map fun b => M.entry a b)
    = .ok [[3 / 4, 11 / 8, 2, 0], [11 / 8, 17 / 8, 4, 0], [2, 4, 6, 0], [0, 0, 0, 0]] := by decide +kernel

/-! ### C34 -/

/-- C34. On one lattice, European call on the maximum plus call on the minimum is the call on the first
asset alone — which is the JR tree call on `Q1*S1` — plus the average of the second asset's call payoff. -/
theorem C34_max_plus_min (o : Opt) (hn : 0 < o.n) (hE : o.otype ≠ "american") (k : ℝ) (hk : o.K = some k) :
    ∃ x y w, price { o with option := .maxOf } true = .ok x ∧ price { o with option := .minOf } true = .ok y ∧
      Tree.price .jr ⟨o.Q1 * o.S1, k, o.t, o.r, o.b1, o.sigma1, "european", o.n⟩ true = .ok w ∧
      x + y = w + average (exp (-o.r * (o.t / o.n))) o.n (fun j i => max 0 (o.Q2 * asset2 o o.n j i - k)) := by
  let oM : Opt := { o with option := .maxOf }
  let om : Opt := { o with option := .minOf }
  have hf1 : PaysOff oM true (fun s1 s2 => max 0 (max (o.Q1 * s1) (o.Q2 * s2) - k)) := by
    intro s1 s2; simp [payoff, oM, hk, num, zOf, bind, Except.bind, pure, Except.pure]
  have hf2 : PaysOff om true (fun s1 s2 => max 0 (min (o.Q1 * s1) (o.Q2 * s2) - k)) := by
    intro s1 s2; simp [payoff, om, hk, num, zOf, bind, Except.bind, pure, Except.pure]
  let oJ : Tree.Opt := ⟨o.Q1 * o.S1, k, o.t, o.r, o.b1, o.sigma1, "european", o.n⟩
  obtain ⟨W, hW⟩ := exists_val false true (o.Q1 * o.S1) k (Tree.factors .jr oJ).u (Tree.factors .jr oJ).d
    (Tree.factors .jr oJ).p (Tree.factors .jr oJ).Df o.n
  refine ⟨_, _, _, european_average oM hn hE true _ hf1, european_average om hn hE true _ hf2,
    price_val (o := oJ) (am := false) hn.ne' rfl hW, ?_⟩
  have ha1 : ∀ m j, asset1 oM m j = asset1 o m j := fun _ _ => rfl
  have ha2 : ∀ m j, asset1 om m j = asset1 o m j := fun _ _ => rfl
  have ha3 : ∀ m j i, asset2 oM m j i = asset2 o m j i := fun _ _ _ => rfl
  have ha4 : ∀ m j i, asset2 om m j i = asset2 o m j i := fun _ _ _ => rfl
  simp only [ha1, ha2, ha3, ha4]
  show average (exp (-o.r * (o.t / o.n))) o.n _ + average (exp (-o.r * (o.t / o.n))) o.n _ = _
  rw [average_add, average_congr (g := fun j i => max 0 (o.Q1 * asset1 o o.n j - k)
    + max 0 (o.Q2 * asset2 o o.n j i - k)), ← average_add, average_fst]
  · congr 1
    rw [IsEuropean.value hW.european 0 (by omega) 0 le_rfl]
    simp only [Nat.sub_zero, zero_add]
    have hD : (Tree.factors .jr oJ).Df = exp (-o.r * (o.t / o.n)) := rfl
    have hp : (Tree.factors .jr oJ).p = 1 / 2 := rfl
    rw [hD, hp]
    unfold Spec.binomialExpectation
    congr 1
    refine Finset.sum_congr rfl fun j hj => ?_
    have hj' : j ≤ o.n := by have := Finset.mem_range.1 hj; omega
    congr 1
    have hnode : Spec.node (o.Q1 * o.S1) (Tree.factors .jr oJ).u (Tree.factors .jr oJ).d o.n j
        = o.Q1 * asset1 o o.n j := by
      rw [← node1_eq o hj']
      unfold Spec.node Opt.node1 Opt.u Opt.d Opt.mu1 Opt.dt
      simp only [Tree.factors, oJ]
      rw [show o.b1 - o.sigma1 ^ 2 / 2 = o.b1 - 0.5 * o.sigma1 * o.sigma1 by ring]
      ring
    beta_reduce; rw [hnode]
    simp [Spec.payoff, max_comm]
  · intro j _ i _
    rcases le_total (o.Q1 * asset1 o o.n j) (o.Q2 * asset2 o o.n j i) with h | h
    · rw [max_eq_right h, min_eq_left h, add_comm]
    · rw [max_eq_left h, min_eq_right h]

/-- C34. The call on the maximum is worth at least the call on the minimum, European or American; the put the
other way round. -/
theorem C34_max_ge_min (o : Opt) (hn : 0 < o.n) (k : ℝ) (hk : o.K = some k) :
    ∃ x y x' y', price { o with option := .maxOf } true = .ok x ∧ price { o with option := .minOf } true = .ok y ∧
      price { o with option := .maxOf } false = .ok x' ∧ price { o with option := .minOf } false = .ok y' ∧
      y ≤ x ∧ x' ≤ y' := by
  let oM : Opt := { o with option := .maxOf }
  let om : Opt := { o with option := .minOf }
  have hf1 : PaysOff oM true (fun s1 s2 => max 0 (max (o.Q1 * s1) (o.Q2 * s2) - k)) := by
    intro s1 s2; simp [payoff, oM, hk, num, zOf, bind, Except.bind, pure, Except.pure]
  have hf2 : PaysOff om true (fun s1 s2 => max 0 (min (o.Q1 * s1) (o.Q2 * s2) - k)) := by
    intro s1 s2; simp [payoff, om, hk, num, zOf, bind, Except.bind, pure, Except.pure]
  have hg1 : PaysOff oM false (fun s1 s2 => max 0 (k - max (o.Q1 * s1) (o.Q2 * s2))) := by
    intro s1 s2; simp [payoff, oM, hk, num, zOf, bind, Except.bind, pure, Except.pure]
  have hg2 : PaysOff om false (fun s1 s2 => max 0 (k - min (o.Q1 * s1) (o.Q2 * s2))) := by
    intro s1 s2; simp [payoff, om, hk, num, zOf, bind, Except.bind, pure, Except.pure]
  obtain ⟨V1, h1⟩ := exists_value (fun m j i => max 0 (max (o.Q1 * asset1 oM m j) (o.Q2 * asset2 oM m j i) - k))
    (o.otype = "american") (exp (-o.r * (o.t / o.n))) o.n
  obtain ⟨V2, h2⟩ := exists_value (fun m j i => max 0 (min (o.Q1 * asset1 om m j) (o.Q2 * asset2 om m j i) - k))
    (o.otype = "american") (exp (-o.r * (o.t / o.n))) o.n
  obtain ⟨V3, h3⟩ := exists_value (fun m j i => max 0 (k - max (o.Q1 * asset1 oM m j) (o.Q2 * asset2 oM m j i)))
    (o.otype = "american") (exp (-o.r * (o.t / o.n))) o.n
  obtain ⟨V4, h4⟩ := exists_value (fun m j i => max 0 (k - min (o.Q1 * asset1 om m j) (o.Q2 * asset2 om m j i)))
    (o.otype = "american") (exp (-o.r * (o.t / o.n))) o.n
  refine ⟨_, _, _, _, price_eq (o := oM) hn hf1 h1, price_eq (o := om) hn hf2 h2, price_eq (o := oM) hn hg1 h3,
    price_eq (o := om) hn hg2 h4, ?_, ?_⟩
  · refine value_mono h2 h1 (exp_pos _).le (fun m _ j _ i _ => ?_) 0 (by omega) 0 le_rfl 0 le_rfl
    refine max_le_max le_rfl (sub_le_sub_right ?_ _)
    exact min_le_max
  · refine value_mono h3 h4 (exp_pos _).le (fun m _ j _ i _ => ?_) 0 (by omega) 0 le_rfl 0 le_rfl
    refine max_le_max le_rfl (sub_le_sub_left ?_ _)
    exact min_le_max

example : (exampleSpread "european").K = some 3 ∧ 0 < (exampleSpread "european").n := by
  norm_num [exampleSpread]

/-- C26 (finding). The 3D tree accepts any `otype`; everything except `"american"` is priced as European. -/
theorem C26_tree3d_accepts (o : Opt) (s : String) (hs : s ≠ "american") (isCall : Bool) :
    price { o with otype := s } isCall = price { o with otype := "european" } isCall := by
  simp only [price, hs, decide_false]
  rfl

end Verif.Props
