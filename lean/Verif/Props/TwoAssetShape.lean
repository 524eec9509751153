import Verif.Props.Tree3d

/-!
# C126, C127: how two-asset lattice prices depend on strike, unit, spots and the order of the assets
-/

namespace Verif.Props
open Real Spec.TwoAsset _root_.Verif.Tree3d Py
open _root_.Verif.Tree (zOf)

/-- What one unit of payoff at the exercise date is worth at most today: `Dᵏ` for a European option, at least one for an
American option. -/
noncomputable def unitWorth (am : Bool) (D : ℝ) (k : ℕ) : ℝ := if am then max 1 (D ^ k) else D ^ k

theorem unitWorth_succ {D : ℝ} (hD : 0 < D) (am : Bool) (k : ℕ) :
    D * unitWorth am D k ≤ unitWorth am D (k + 1) ∧ (am = true → 1 ≤ unitWorth am D (k + 1)) := by
  cases am
  · simp [unitWorth, pow_succ, mul_comm]
  · simp only [unitWorth, if_true, forall_const]
    refine ⟨?_, le_max_left _ _⟩
    rcases le_total D 1 with h | h
    · rw [max_eq_left (pow_le_one₀ hD.le h)]
      exact le_max_of_le_left (by linarith)
    · rw [max_eq_right (one_le_pow₀ h)]
      exact le_max_of_le_right (by rw [pow_succ, mul_comm])

theorem value_comb {P P1 P2 V V1 V2 : ℕ → ℕ → ℕ → ℝ} {am : Bool} {D a b c : ℝ} {n : ℕ} (hV : IsValue P am D n V)
    (hV1 : IsValue P1 am D n V1) (hV2 : IsValue P2 am D n V2) (hD : 0 < D) (ha : 0 ≤ a) (hb : 0 ≤ b) (hc : 0 ≤ c)
    (hP : ∀ m ≤ n, ∀ j ≤ m, ∀ i ≤ m, P m j i ≤ a * P1 m j i + b * P2 m j i + c) :
    ∀ m ≤ n, ∀ j ≤ m, ∀ i ≤ m, V m j i ≤ a * V1 m j i + b * V2 m j i + c * unitWorth am D (n - m) := by
  refine level_induction ?_ ?_
  · intro j hj i hi
    rw [hV.terminal j hj i hi, hV1.terminal j hj i hi, hV2.terminal j hj i hi]
    have : unitWorth am D (n - n) = 1 := by cases am <;> simp [unitWorth]
    rw [this, mul_one]
    exact hP n le_rfl j hj i hi
  · intro m hm ih j hj i hi
    have e := hV.back m hm j hj i hi
    have e1 := hV1.back m hm j hj i hi
    have e2 := hV2.back m hm j hj i hi
    simp only at e e1 e2
    have h1 := ih j (by omega) i (by omega)
    have h2 := ih (j + 1) (by omega) i (by omega)
    have h3 := ih j (by omega) (i + 1) (by omega)
    have h4 := ih (j + 1) (by omega) (i + 1) (by omega)
    obtain ⟨k, hk⟩ : ∃ k, n - m = k + 1 := ⟨n - m - 1, by omega⟩
    have hk1 : n - (m + 1) = k := by omega
    rw [hk1] at h1 h2 h3 h4
    obtain ⟨u1, u2⟩ := unitWorth_succ hD am k
    have u1' := mul_le_mul_of_nonneg_left u1 hc
    rw [hk]
    have hp := hP m hm.le j hj i hi
    have hs : (V (m + 1) j i + V (m + 1) (j + 1) i + V (m + 1) j (i + 1) + V (m + 1) (j + 1) (i + 1)) / 4
        ≤ a * ((V1 (m + 1) j i + V1 (m + 1) (j + 1) i + V1 (m + 1) j (i + 1) + V1 (m + 1) (j + 1) (i + 1)) / 4)
          + b * ((V2 (m + 1) j i + V2 (m + 1) (j + 1) i + V2 (m + 1) j (i + 1) + V2 (m + 1) (j + 1) (i + 1)) / 4)
          + c * unitWorth am D k := by linarith
    have hs' := mul_le_mul_of_nonneg_left hs hD.le
    rw [e, e1, e2]
    generalize (V (m + 1) j i + V (m + 1) (j + 1) i + V (m + 1) j (i + 1) + V (m + 1) (j + 1) (i + 1)) / 4 = s at *
    generalize (V1 (m + 1) j i + V1 (m + 1) (j + 1) i + V1 (m + 1) j (i + 1) + V1 (m + 1) (j + 1) (i + 1)) / 4 = s1 at *
    generalize (V2 (m + 1) j i + V2 (m + 1) (j + 1) i + V2 (m + 1) j (i + 1) + V2 (m + 1) (j + 1) (i + 1)) / 4 = s2 at *
    have hs2 : D * s ≤ a * (D * s1) + b * (D * s2) + c * unitWorth am D (k + 1) := by nlinarith
    cases am
    · exact hs2
    · simp only [if_true]
      refine max_le (hs2.trans ?_) (hp.trans ?_)
      · have k1 := mul_le_mul_of_nonneg_left (le_max_left (D * s1) (P1 m j i)) ha
        have k2 := mul_le_mul_of_nonneg_left (le_max_left (D * s2) (P2 m j i)) hb
        linarith
      · have k1 := mul_le_mul_of_nonneg_left (le_max_right (D * s1) (P1 m j i)) ha
        have k2 := mul_le_mul_of_nonneg_left (le_max_right (D * s2) (P2 m j i)) hb
        have k3 := mul_le_mul_of_nonneg_left (u2 rfl) hc
        linarith

theorem priced {o : Opt} {isCall : Bool} {f : ℝ → ℝ → ℝ} (hf : PaysOff o isCall f) (hn : 0 < o.n) :
    ∃ V, IsValue (fun m j i => f (asset1 o m j) (asset2 o m j i)) (o.otype = "american") (exp (-o.r * (o.t / o.n))) o.n V ∧
      price o isCall = .ok (V 0 0 0) := by
  obtain ⟨V, hV⟩ := exists_value (fun m j i => f (asset1 o m j) (asset2 o m j i)) (o.otype = "american")
    (exp (-o.r * (o.t / o.n))) o.n
  exact ⟨V, hV, price_eq hn hf hV⟩

/-- Payoff evaluated as documented: every option number except 8, and 7 for calls. -/
structure AsDocumented (o : Opt) (isCall : Bool) : Prop where
  strikes : HasStrikes o.option o.K o.K2
  h8 : o.option ≠ .outperformance
  h7 : o.option = .exchange → isCall = true

theorem AsDocumented.pays {o : Opt} {isCall : Bool} (h : AsDocumented o isCall) :
    PaysOff o isCall (fun s1 s2 => documented o.option.number isCall (o.Q1 * s1) (o.Q2 * s2) (o.K.getD 0) (o.K2.getD 0)) :=
  fun s1 s2 => C31_payoffs_partial o.option isCall s1 s2 o.Q1 o.Q2 o.K o.K2 h.strikes h.h8 h.h7

/-- The options with a single strike: numbers 1, 2, 3, 6 and 9. -/
def OneStrike (c : Code) : Prop := c = .spread ∨ c = .maxOf ∨ c = .minOf ∨ c = .portfolio ∨ c = .product

theorem documented_one {c : Code} (h : OneStrike c) : ∃ X : ℝ → ℝ → ℝ, ∀ (isCall : Bool) (x y K K2 : ℝ),
    documented c.number isCall x y K K2 = max 0 (if isCall then X x y - K else K - X x y) := by
  rcases h with rfl | rfl | rfl | rfl | rfl
  · exact ⟨fun x y => x - y, fun isCall x y K K2 => by cases isCall <;> rfl⟩
  · exact ⟨fun x y => max x y, fun isCall x y K K2 => by cases isCall <;> rfl⟩
  · exact ⟨fun x y => min x y, fun isCall x y K K2 => by cases isCall <;> rfl⟩
  · exact ⟨fun x y => x + y, fun isCall x y K K2 => by
      cases isCall
      · simp [documented, Code.number, add_comm]
      · rfl⟩
  · exact ⟨fun x y => x * y, fun isCall x y K K2 => by cases isCall <;> rfl⟩

theorem one_documented {o : Opt} (hc : OneStrike o.option) (k : ℝ) (isCall : Bool) :
    AsDocumented { o with K := some k } isCall := by
  refine ⟨⟨fun _ => rfl, fun h => ?_⟩, ?_, ?_⟩ <;> rcases hc with h1 | h1 | h1 | h1 | h1 <;> simp_all

/-- **C126, strike.** For the options with one strike, European or American: a higher strike makes a call no dearer and a put
no cheaper, by at most the difference of the strikes times what a unit is worth; and the price is convex in the strike. -/
theorem C126_strike (o : Opt) (hn : 0 < o.n) (hc : OneStrike o.option) (isCall : Bool) {k k' θ : ℝ} (hk : k ≤ k')
    (h0 : 0 ≤ θ) (h1 : θ ≤ 1) :
    ∃ x y z, price { o with K := some k } isCall = .ok x ∧ price { o with K := some k' } isCall = .ok y ∧
      price { o with K := some (θ * k + (1 - θ) * k') } isCall = .ok z ∧
      (if isCall then y ≤ x ∧ x - y ≤ (k' - k) * (if o.otype = "american" then max 1 (exp (-o.r * o.t)) else exp (-o.r * o.t))
        else x ≤ y ∧ y - x ≤ (k' - k) * (if o.otype = "american" then max 1 (exp (-o.r * o.t)) else exp (-o.r * o.t))) ∧
      z ≤ θ * x + (1 - θ) * y := by
  obtain ⟨X, hX⟩ := documented_one hc
  obtain ⟨V, hV, hx⟩ := priced (o := { o with K := some k }) (one_documented hc k isCall).pays hn
  obtain ⟨V', hV', hy⟩ := priced (o := { o with K := some k' }) (one_documented hc k' isCall).pays hn
  obtain ⟨W, hW, hz⟩ := priced (o := { o with K := some (θ * k + (1 - θ) * k') }) (one_documented hc _ isCall).pays hn
  refine ⟨_, _, _, hx, hy, hz, ?_, ?_⟩
  · have hu : unitWorth (decide (o.otype = "american")) (exp (-o.r * (o.t / o.n))) (o.n - 0)
        = if o.otype = "american" then max 1 (exp (-o.r * o.t)) else exp (-o.r * o.t) := by
      rw [Nat.sub_zero, unitWorth, exp_div_pow _ _ hn.ne']
      by_cases h : o.otype = "american" <;> simp [h]
    rw [← hu]
    simp only [hX, asset1, asset2, Option.getD_some] at hV hV'
    have hkk : 0 ≤ k' - k := by linarith
    cases isCall
    · simp only [Bool.false_eq_true, if_false] at hV hV' ⊢
      refine ⟨value_mono hV hV' (exp_pos _).le (fun m _ j _ i _ => max_le_max le_rfl (by linarith)) 0 (by omega) 0 le_rfl 0 le_rfl, ?_⟩
      have := value_comb hV' hV hV (exp_pos _) (a := 1) (b := 0) (c := k' - k) zero_le_one le_rfl hkk (fun m _ j _ i _ => by
        rw [one_mul, zero_mul, add_zero]
        refine max_le ?_ ?_
        · exact add_nonneg (le_max_left _ _) hkk
        · exact le_trans (by linarith) (add_le_add_left (le_max_right _ _) _)) 0 (by omega) 0 le_rfl 0 le_rfl
      linarith
    · simp only [if_true] at hV hV' ⊢
      refine ⟨value_mono hV' hV (exp_pos _).le (fun m _ j _ i _ => max_le_max le_rfl (by linarith)) 0 (by omega) 0 le_rfl 0 le_rfl, ?_⟩
      have := value_comb hV hV' hV' (exp_pos _) (a := 1) (b := 0) (c := k' - k) zero_le_one le_rfl hkk (fun m _ j _ i _ => by
        rw [one_mul, zero_mul, add_zero]
        refine max_le ?_ ?_
        · exact add_nonneg (le_max_left _ _) hkk
        · exact le_trans (by linarith) (add_le_add_left (le_max_right _ _) _)) 0 (by omega) 0 le_rfl 0 le_rfl
      linarith
  · simp only [hX, asset1, asset2, Option.getD_some] at hV hV' hW
    have h1' : 0 ≤ 1 - θ := by linarith
    have := value_comb hW hV hV' (exp_pos _) (a := θ) (b := 1 - θ) (c := 0) h0 h1' le_rfl (fun m _ j _ i _ => by
      rw [add_zero]
      refine max_le ?_ ?_
      · exact add_nonneg (mul_nonneg h0 (le_max_left _ _)) (mul_nonneg h1' (le_max_left _ _))
      · refine le_trans (le_of_eq ?_) (add_le_add (mul_le_mul_of_nonneg_left (le_max_right _ _) h0)
          (mul_le_mul_of_nonneg_left (le_max_right _ _) h1'))
        cases isCall
        · simp only [Bool.false_eq_true, if_false]; ring
        · simp only [if_true]; ring) 0 (by omega) 0 le_rfl 0 le_rfl
    linarith

/-- Prices of options whose node payoffs are in a fixed ratio. -/
theorem value_scale {P P' V V' : ℕ → ℕ → ℕ → ℝ} {am : Bool} {D l : ℝ} {n : ℕ} (hV : IsValue P am D n V)
    (hV' : IsValue P' am D n V') (hl : 0 ≤ l) (hP : ∀ m ≤ n, ∀ j ≤ m, ∀ i ≤ m, P' m j i = l * P m j i) :
    ∀ m ≤ n, ∀ j ≤ m, ∀ i ≤ m, V' m j i = l * V m j i := by
  refine level_induction ?_ ?_
  · intro j hj i hi
    rw [hV.terminal j hj i hi, hV'.terminal j hj i hi]; exact hP n le_rfl j hj i hi
  · intro m hm ih j hj i hi
    have e := hV.back m hm j hj i hi
    have e' := hV'.back m hm j hj i hi
    simp only at e e'
    rw [e, e', ih j (by omega) i (by omega), ih (j + 1) (by omega) i (by omega), ih j (by omega) (i + 1) (by omega),
      ih (j + 1) (by omega) (i + 1) (by omega), hP m hm.le j hj i hi]
    cases am
    · simp only [Bool.false_eq_true, if_false]; ring
    · simp only [if_true]
      rw [mul_max_of_nonneg _ _ hl]
      congr 1
      ring

theorem documented_scale {c : Code} (h9 : c ≠ .product) (h8 : c ≠ .outperformance) (isCall : Bool) {l : ℝ} (hl : 0 ≤ l)
    (x y K K2 : ℝ) :
    documented c.number isCall (l * x) (l * y) (l * K) (l * K2) = l * documented c.number isCall x y K K2 := by
  cases c <;> first | exact absurd rfl h9 | exact absurd rfl h8 | skip
  all_goals
    cases isCall <;> simp only [documented, Code.number, mul_max_of_nonneg _ _ hl, mul_min_of_nonneg _ _ hl, mul_zero, mul_sub, mul_add]

/-- **C126, unit.** Quoting both prices and the strikes in a unit `l` times smaller multiplies the price by `l`; for the option
on the product of the prices this holds for the first price and the strike. -/
theorem C126_scale (o : Opt) (hn : 0 < o.n) (isCall : Bool) (h : AsDocumented o isCall) {l : ℝ} (hl : 0 < l) :
    ∃ x, price o isCall = .ok x ∧
      (o.option ≠ .product →
        price { o with S1 := l * o.S1, S2 := l * o.S2, K := o.K.map (l * ·), K2 := o.K2.map (l * ·) } isCall = .ok (l * x)) ∧
      (o.option = .product → price { o with S1 := l * o.S1, K := o.K.map (l * ·) } isCall = .ok (l * x)) := by
  obtain ⟨V, hV, hx⟩ := priced h.pays hn
  have gd : ∀ K : Option ℝ, (K.map (l * ·)).getD 0 = l * K.getD 0 := fun K => by cases K <;> simp
  refine ⟨_, hx, fun h9 => ?_, fun h9 => ?_⟩
  · have h' : AsDocumented { o with S1 := l * o.S1, S2 := l * o.S2, K := o.K.map (l * ·), K2 := o.K2.map (l * ·) } isCall :=
      ⟨⟨fun k => by simpa using h.strikes.1 k, fun k => by simpa using h.strikes.2 k⟩, h.h8, h.h7⟩
    obtain ⟨V', hV', hy⟩ := priced h'.pays hn
    rw [hy]
    congr 1
    refine value_scale hV hV' hl.le (fun m _ j _ i _ => ?_) 0 (by omega) 0 le_rfl 0 le_rfl
    rw [← documented_scale h9 h.h8 isCall hl.le]
    simp only [gd, asset1, asset2]
    congr 1 <;> ring
  · have h' : AsDocumented { o with S1 := l * o.S1, K := o.K.map (l * ·) } isCall :=
      ⟨⟨fun k => by simpa using h.strikes.1 k, h.strikes.2⟩, h.h8, h.h7⟩
    obtain ⟨V', hV', hy⟩ := priced h'.pays hn
    rw [hy]
    congr 1
    refine value_scale hV hV' hl.le (fun m _ j _ i _ => ?_) 0 (by omega) 0 le_rfl 0 le_rfl
    simp only [gd, asset1, asset2, h9, Code.number]
    cases isCall <;> simp only [documented, mul_max_of_nonneg _ _ hl.le, mul_zero, mul_sub] <;> congr 1 <;> ring

/-- Documented payoffs as functions of the first leg: all rise for calls and fall for puts, except the exchange option. -/
theorem documented_first {c : Code} (h8 : c ≠ .outperformance) {x x' y K K2 : ℝ} (hx : x ≤ x') (h9 : c = .product → 0 ≤ y) :
    (c ≠ .exchange → documented c.number true x y K K2 ≤ documented c.number true x' y K K2 ∧
      documented c.number false x' y K K2 ≤ documented c.number false x y K K2) ∧
    documented Code.exchange.number true x' y K K2 ≤ documented Code.exchange.number true x y K K2 := by
  refine ⟨fun h7 => ?_, max_le_max le_rfl (by linarith)⟩
  cases c <;> first | exact absurd rfl h8 | exact absurd rfl h7 | skip
  case product =>
    have := mul_le_mul_of_nonneg_right hx (h9 rfl)
    exact ⟨max_le_max le_rfl (by linarith), max_le_max le_rfl (by linarith)⟩
  all_goals
    simp only [documented, Code.number]
    constructor <;> gcongr

/-- Documented payoffs as functions of the second leg: spread and reverse dual-strike calls fall, the other calls rise. -/
theorem documented_second {c : Code} (h8 : c ≠ .outperformance) {x y y' K K2 : ℝ} (hy : y ≤ y') (h9 : c = .product → 0 ≤ x) :
    (c ≠ .spread → c ≠ .reverseDual → documented c.number true x y K K2 ≤ documented c.number true x y' K K2 ∧
      (c ≠ .exchange → documented c.number false x y' K K2 ≤ documented c.number false x y K K2)) ∧
    (c = .spread ∨ c = .reverseDual → documented c.number true x y' K K2 ≤ documented c.number true x y K K2 ∧
      documented c.number false x y K K2 ≤ documented c.number false x y' K K2) := by
  refine ⟨fun h1 h5 => ?_, fun h => ?_⟩
  · cases c <;> first | exact absurd rfl h8 | exact absurd rfl h1 | exact absurd rfl h5 | skip
    case product =>
      have := mul_le_mul_of_nonneg_left hy (h9 rfl)
      exact ⟨max_le_max le_rfl (by linarith), fun _ => max_le_max le_rfl (by linarith)⟩
    case exchange => exact ⟨max_le_max le_rfl (by linarith), fun h => absurd rfl h⟩
    all_goals
      simp only [documented, Code.number]
      refine ⟨?_, fun _ => ?_⟩ <;> gcongr
  · rcases h with rfl | rfl <;> simp only [documented, Code.number] <;> constructor <;> gcongr

/-- **C126, first asset.** With positions `Q1, Q2 ≥ 0`, a higher first price makes every call except the exchange call no
cheaper and every put no dearer; the exchange call, which gives the first asset away, gets no dearer. -/
theorem C126_first (o : Opt) (hn : 0 < o.n) (isCall : Bool) (h : AsDocumented o isCall) (hQ1 : 0 ≤ o.Q1) (hQ2 : 0 ≤ o.Q2)
    (hS2 : 0 ≤ o.S2) {S1' : ℝ} (hS : o.S1 ≤ S1') :
    ∃ x y, price o isCall = .ok x ∧ price { o with S1 := S1' } isCall = .ok y ∧
      (if isCall = true ∧ o.option ≠ .exchange then x ≤ y else y ≤ x) := by
  obtain ⟨V, hV, hx⟩ := priced h.pays hn
  have h' : AsDocumented { o with S1 := S1' } isCall := ⟨h.strikes, h.h8, h.h7⟩
  obtain ⟨V', hV', hy⟩ := priced h'.pays hn
  refine ⟨_, _, hx, hy, ?_⟩
  have key : ∀ m j i, _ := fun m j i => documented_first (c := o.option) h.h8 (x := o.Q1 * asset1 o m j)
    (x' := o.Q1 * asset1 { o with S1 := S1' } m j) (y := o.Q2 * asset2 o m j i) (K := o.K.getD 0) (K2 := o.K2.getD 0)
    (mul_le_mul_of_nonneg_left (mul_le_mul_of_nonneg_right hS (exp_pos _).le) hQ1)
    (fun _ => mul_nonneg hQ2 (mul_nonneg hS2 (exp_pos _).le))
  cases isCall
  · rw [if_neg (by simp)]
    have h7 : o.option ≠ .exchange := fun k => by simpa using h.h7 k
    exact value_mono hV' hV (exp_pos _).le (fun m _ j _ i _ => ((key m j i).1 h7).2) 0 (by omega) 0 le_rfl 0 le_rfl
  · by_cases h7 : o.option = .exchange
    · rw [if_neg (by simp [h7])]
      refine value_mono hV' hV (exp_pos _).le (fun m _ j _ i _ => ?_) 0 (by omega) 0 le_rfl 0 le_rfl
      have := (key m j i).2
      rw [← h7] at this
      exact this
    · rw [if_pos ⟨rfl, h7⟩]
      exact value_mono hV hV' (exp_pos _).le (fun m _ j _ i _ => ((key m j i).1 h7).1) 0 (by omega) 0 le_rfl 0 le_rfl

/-- **C126, second asset.** A higher second price lowers spread and reverse dual-strike calls and raises the other calls; puts
move the other way. -/
theorem C126_second (o : Opt) (hn : 0 < o.n) (isCall : Bool) (h : AsDocumented o isCall) (hQ1 : 0 ≤ o.Q1) (hQ2 : 0 ≤ o.Q2)
    (hS1 : 0 ≤ o.S1) {S2' : ℝ} (hS : o.S2 ≤ S2') :
    ∃ x y, price o isCall = .ok x ∧ price { o with S2 := S2' } isCall = .ok y ∧
      (if (isCall = true ↔ o.option ≠ .spread ∧ o.option ≠ .reverseDual) then x ≤ y else y ≤ x) := by
  obtain ⟨V, hV, hx⟩ := priced h.pays hn
  have h' : AsDocumented { o with S2 := S2' } isCall := ⟨h.strikes, h.h8, h.h7⟩
  obtain ⟨V', hV', hy⟩ := priced h'.pays hn
  refine ⟨_, _, hx, hy, ?_⟩
  have key : ∀ m j i, _ := fun m j i => documented_second (c := o.option) h.h8 (x := o.Q1 * asset1 o m j)
    (y := o.Q2 * asset2 o m j i) (y' := o.Q2 * asset2 { o with S2 := S2' } m j i) (K := o.K.getD 0) (K2 := o.K2.getD 0)
    (mul_le_mul_of_nonneg_left (mul_le_mul_of_nonneg_right hS (exp_pos _).le) hQ2)
    (fun _ => mul_nonneg hQ1 (mul_nonneg hS1 (exp_pos _).le))
  have up : (∀ m j i, documented o.option.number isCall (o.Q1 * asset1 o m j) (o.Q2 * asset2 o m j i) (o.K.getD 0) (o.K2.getD 0)
      ≤ documented o.option.number isCall (o.Q1 * asset1 o m j) (o.Q2 * asset2 { o with S2 := S2' } m j i) (o.K.getD 0)
        (o.K2.getD 0)) → V 0 0 0 ≤ V' 0 0 0 := fun k =>
    value_mono hV hV' (exp_pos _).le (fun m _ j _ i _ => k m j i) 0 (by omega) 0 le_rfl 0 le_rfl
  have down : (∀ m j i, documented o.option.number isCall (o.Q1 * asset1 o m j) (o.Q2 * asset2 { o with S2 := S2' } m j i)
      (o.K.getD 0) (o.K2.getD 0) ≤ documented o.option.number isCall (o.Q1 * asset1 o m j) (o.Q2 * asset2 o m j i) (o.K.getD 0)
        (o.K2.getD 0)) → V' 0 0 0 ≤ V 0 0 0 := fun k =>
    value_mono hV' hV (exp_pos _).le (fun m _ j _ i _ => k m j i) 0 (by omega) 0 le_rfl 0 le_rfl
  by_cases hc : o.option ≠ .spread ∧ o.option ≠ .reverseDual
  · cases isCall
    · have h7 : o.option ≠ .exchange := fun k => by simpa using h.h7 k
      rw [if_neg (by simp [hc])]
      exact down fun m j i => ((key m j i).1 hc.1 hc.2).2 h7
    · rw [if_pos (by simp [hc])]
      exact up fun m j i => ((key m j i).1 hc.1 hc.2).1
  · have hc' : o.option = .spread ∨ o.option = .reverseDual := by tauto
    cases isCall
    · rw [if_pos (by simp [hc])]
      exact up fun m j i => ((key m j i).2 hc').2
    · rw [if_neg (by simp [hc])]
      exact down fun m j i => ((key m j i).2 hc').1

/-- The payoffs that are convex in the two legs together. -/
def ConvexPayoff (c : Code) (isCall : Bool) : Prop :=
  c = .spread ∨ c = .portfolio ∨ c = .dual ∨ c = .reverseDual ∨ c = .exchange ∨ (c = .maxOf ∧ isCall = true) ∨
    (c = .minOf ∧ isCall = false)

theorem max_comb {a a' A A' θ : ℝ} (h0 : 0 ≤ θ) (h1 : θ ≤ 1) (h : a ≤ A) (h' : a' ≤ A') :
    θ * a + (1 - θ) * a' ≤ θ * A + (1 - θ) * A' :=
  add_le_add (mul_le_mul_of_nonneg_left h h0) (mul_le_mul_of_nonneg_left h' (by linarith))

theorem documented_convex {c : Code} {isCall : Bool} (hc : ConvexPayoff c isCall) {x x' y y' K K2 θ : ℝ} (h0 : 0 ≤ θ) (h1 : θ ≤ 1) :
    documented c.number isCall (θ * x + (1 - θ) * x') (θ * y + (1 - θ) * y') K K2
      ≤ θ * documented c.number isCall x y K K2 + (1 - θ) * documented c.number isCall x' y' K K2 := by
  have one : ∀ {a a' z : ℝ}, z = θ * a + (1 - θ) * a' → max 0 z ≤ θ * max 0 a + (1 - θ) * max 0 a' := fun e =>
    max_le (add_nonneg (mul_nonneg h0 (le_max_left _ _)) (mul_nonneg (by linarith) (le_max_left _ _)))
      (e ▸ max_comb h0 h1 (le_max_right _ _) (le_max_right _ _))
  have two : ∀ {a a' z b b' w : ℝ}, z = θ * a + (1 - θ) * a' → w = θ * b + (1 - θ) * b' →
      max 0 (max z w) ≤ θ * max 0 (max a b) + (1 - θ) * max 0 (max a' b') := fun e e' =>
    max_le (add_nonneg (mul_nonneg h0 (le_max_left _ _)) (mul_nonneg (by linarith) (le_max_left _ _)))
      (max_le (e ▸ max_comb h0 h1 (le_max_of_le_right (le_max_left _ _)) (le_max_of_le_right (le_max_left _ _)))
        (e' ▸ max_comb h0 h1 (le_max_of_le_right (le_max_right _ _)) (le_max_of_le_right (le_max_right _ _))))
  rcases hc with rfl | rfl | rfl | rfl | rfl | ⟨rfl, rfl⟩ | ⟨rfl, rfl⟩
  · cases isCall <;> exact one (by ring)
  · cases isCall <;> exact one (by ring)
  · cases isCall <;> exact two (by ring) (by ring)
  · cases isCall <;> exact two (by ring) (by ring)
  · cases isCall <;> exact one (by ring)
  · simp only [documented, Code.number, ← max_sub_sub_right]
    exact two (by ring) (by ring)
  · simp only [documented, Code.number, ← max_sub_sub_left]
    exact two (by ring) (by ring)

/-- **C126, convexity.** For the payoffs that are convex in the two prices together the lattice price is convex in the two
spots together. -/
theorem C126_convex (o : Opt) (hn : 0 < o.n) (isCall : Bool) (h : AsDocumented o isCall) (hc : ConvexPayoff o.option isCall)
    (S1' S2' : ℝ) {θ : ℝ} (h0 : 0 ≤ θ) (h1 : θ ≤ 1) :
    ∃ x y z, price o isCall = .ok x ∧ price { o with S1 := S1', S2 := S2' } isCall = .ok y ∧
      price { o with S1 := θ * o.S1 + (1 - θ) * S1', S2 := θ * o.S2 + (1 - θ) * S2' } isCall = .ok z ∧
      z ≤ θ * x + (1 - θ) * y := by
  obtain ⟨V, hV, hx⟩ := priced h.pays hn
  have h' : AsDocumented { o with S1 := S1', S2 := S2' } isCall := ⟨h.strikes, h.h8, h.h7⟩
  obtain ⟨V', hV', hy⟩ := priced h'.pays hn
  have hw : AsDocumented { o with S1 := θ * o.S1 + (1 - θ) * S1', S2 := θ * o.S2 + (1 - θ) * S2' } isCall :=
    ⟨h.strikes, h.h8, h.h7⟩
  obtain ⟨W, hW, hz⟩ := priced hw.pays hn
  refine ⟨_, _, _, hx, hy, hz, ?_⟩
  have := value_comb hW hV hV' (exp_pos _) (a := θ) (b := 1 - θ) (c := 0) h0 (by linarith) le_rfl (fun m _ j _ i _ => by
    rw [add_zero]
    refine le_trans (le_of_eq ?_) (documented_convex hc h0 h1)
    simp only [asset1, asset2]
    congr 1 <;> ring) 0 (by omega) 0 le_rfl 0 le_rfl
  linarith

/-- Example for C126: the documented spread option, at its strike 3 and at strike 5, ten shares instead of one. -/
theorem C126_example : ∃ x y, price (exampleSpread "american") true = .ok x ∧
    price { exampleSpread "american" with K := some 5 } true = .ok y ∧ y ≤ x ∧ x - y ≤ 2 ∧
    price { exampleSpread "american" with S1 := 1220, S2 := 1200, K := some 30 } true = .ok (10 * x) := by
  have hn : 0 < (exampleSpread "american").n := by norm_num [exampleSpread]
  have hd : AsDocumented (exampleSpread "american") true := one_documented (o := exampleSpread "american") (.inl rfl) 3 true
  obtain ⟨x, y, z, hx, hy, -, h, -⟩ := C126_strike (exampleSpread "american") hn (.inl rfl) true (k := 3) (k' := 5) (θ := 0)
    (by norm_num) le_rfl zero_le_one
  obtain ⟨x', hx', hs, -⟩ := C126_scale (exampleSpread "american") hn true hd (l := 10) (by norm_num)
  have e : price (exampleSpread "american") true = .ok x := hx
  rw [e] at hx'
  injection hx' with hx'
  subst hx'
  simp only [if_true] at h
  have h1 : exp (-(exampleSpread "american").r * (exampleSpread "american").t) ≤ 1 :=
    exp_le_one_iff.2 (by norm_num [exampleSpread])
  have hu : (if (exampleSpread "american").otype = "american" then
    max 1 (exp (-(exampleSpread "american").r * (exampleSpread "american").t)) else
      exp (-(exampleSpread "american").r * (exampleSpread "american").t)) = 1 := by
    rw [if_pos (show (exampleSpread "american").otype = "american" from rfl), max_eq_left h1]
  rw [hu] at h
  refine ⟨x, y, e, hy, h.1, by linarith [h.2], ?_⟩
  have he : { exampleSpread "american" with S1 := 1220, S2 := 1200, K := some 30 }
      = { exampleSpread "american" with
          S1 := 10 * (exampleSpread "american").S1, S2 := 10 * (exampleSpread "american").S2,
          K := (exampleSpread "american").K.map (10 * ·), K2 := (exampleSpread "american").K2.map (10 * ·) } := by
    rw [Opt.mk.injEq]
    refine ⟨?_, ?_, rfl, rfl, rfl, rfl, rfl, rfl, rfl, ?_, rfl, rfl, rfl, rfl, rfl, rfl⟩ <;>
      norm_num [exampleSpread]
  rw [he]
  exact hs (by simp [exampleSpread])

/-! ### C127: the order of the assets -/

/-- The same contract with the two assets named in the other order. -/
def swapAssets (o : Opt) : Opt :=
  { o with S1 := o.S2, S2 := o.S1, b1 := o.b2, b2 := o.b1, sigma1 := o.sigma2, sigma2 := o.sigma1, Q1 := o.Q2, Q2 := o.Q1,
           K := if o.option = .dual then o.K2 else o.K, K2 := if o.option = .dual then o.K else o.K2 }

/-- The contracts that treat both assets alike: maximum, minimum, dual strike, portfolio and product. -/
def Alike (c : Code) : Prop := c = .maxOf ∨ c = .minOf ∨ c = .dual ∨ c = .portfolio ∨ c = .product

theorem documented_swap {c : Code} (hc : Alike c) (isCall : Bool) (x y K K2 : ℝ) :
    documented c.number isCall y x (if c = .dual then K2 else K) (if c = .dual then K else K2)
      = documented c.number isCall x y K K2 := by
  rcases hc with rfl | rfl | rfl | rfl | rfl <;> cases isCall <;>
    simp [documented, Code.number, max_comm, min_comm, add_comm, mul_comm]

theorem swap_documented {o : Opt} (hc : Alike o.option) (hs : HasStrikes o.option o.K o.K2) (isCall : Bool) :
    AsDocumented o isCall ∧ AsDocumented (swapAssets o) isCall := by
  refine ⟨⟨hs, ?_, ?_⟩, ⟨⟨fun h => ?_, fun h => ?_⟩, ?_, ?_⟩⟩ <;>
    rcases hc with h1 | h1 | h1 | h1 | h1 <;> simp_all [swapAssets, HasStrikes]

/-- **C127, for correlation 0 and ±1.** Naming the assets in the other order gives the same price. -/
theorem C127_swap_partial (o : Opt) (hn : 0 < o.n) (isCall : Bool) (hc : Alike o.option) (hs : HasStrikes o.option o.K o.K2)
    (hρ : o.rho = 0 ∨ o.rho = 1 ∨ o.rho = -1) :
    ∃ x, price o isCall = .ok x ∧ price (swapAssets o) isCall = .ok x := by
  obtain ⟨h, h'⟩ := swap_documented hc hs isCall
  obtain ⟨V, hV, hx⟩ := priced h.pays hn
  refine ⟨_, hx, ?_⟩
  have hK : (swapAssets o).K.getD 0 = if o.option = .dual then o.K2.getD 0 else o.K.getD 0 := by
    simp only [swapAssets]; split_ifs <;> rfl
  have hK2 : (swapAssets o).K2.getD 0 = if o.option = .dual then o.K.getD 0 else o.K2.getD 0 := by
    simp only [swapAssets]; split_ifs <;> rfl
  have pay : ∀ {m j i j' i' : ℕ}, asset1 (swapAssets o) m j = asset2 o m j' i' → asset2 (swapAssets o) m j i = asset1 o m j' →
      documented (swapAssets o).option.number isCall ((swapAssets o).Q1 * asset1 (swapAssets o) m j)
        ((swapAssets o).Q2 * asset2 (swapAssets o) m j i) ((swapAssets o).K.getD 0) ((swapAssets o).K2.getD 0)
      = documented o.option.number isCall (o.Q1 * asset1 o m j') (o.Q2 * asset2 o m j' i') (o.K.getD 0) (o.K2.getD 0) := by
    intro m j i j' i' e1 e2
    rw [e1, e2, hK, hK2]
    exact documented_swap hc isCall _ _ _ _
  rcases hρ with hρ | hρ | hρ
  · refine price_eq (o := swapAssets o) hn h'.pays (V := fun m j i => V m i j) ⟨fun j hj i hi => ?_, fun m hm j hj i hi => ?_⟩
    · rw [pay (m := (swapAssets o).n) (j := j) (i := i) (j' := i) (i' := j)]
      · exact hV.terminal i hi j hj
      all_goals simp [asset1, asset2, swapAssets, hρ]
    · have := hV.back m hm i hi j hj
      simp only at this ⊢
      rw [pay (m := m) (j := j) (i := i) (j' := i) (i' := j), this]
      · rw [add_right_comm (V (m + 1) i j)]
        rfl
      all_goals simp [asset1, asset2, swapAssets, hρ]
  · refine price_eq (o := swapAssets o) hn h'.pays (V := V) ⟨fun j hj i hi => ?_, fun m hm j hj i hi => ?_⟩
    · rw [pay (m := (swapAssets o).n) (j := j) (i := i) (j' := j) (i' := i)]
      · exact hV.terminal j hj i hi
      all_goals simp [asset1, asset2, swapAssets, hρ]
    · rw [pay (m := m) (j := j) (i := i) (j' := j) (i' := i)]
      · exact hV.back m hm j hj i hi
      all_goals simp [asset1, asset2, swapAssets, hρ]
  · have c2 : ∀ {m j : ℕ}, j ≤ m → ((m - j : ℕ) : ℝ) = m - j := fun h => Nat.cast_sub h
    have a1 : ∀ {m j i : ℕ}, j ≤ m → asset1 (swapAssets o) m j = asset2 o m (m - j) i := by
      intro m j i hj
      simp only [asset1, asset2, swapAssets, hρ, c2 hj]
      norm_num
      left; ring
    have a2 : ∀ {m j i : ℕ}, j ≤ m → asset2 (swapAssets o) m j i = asset1 o m (m - j) := by
      intro m j i hj
      simp only [asset1, asset2, swapAssets, hρ, c2 hj]
      norm_num
      left; ring
    refine price_eq (o := swapAssets o) hn h'.pays (V := fun m j i => V m (m - j) i)
      ⟨fun j hj i hi => ?_, fun m hm j hj i hi => ?_⟩
    · rw [pay (m := (swapAssets o).n) (a1 (i := i) hj) (a2 (i := i) hj)]
      exact hV.terminal (o.n - j) (by omega) i hi
    · have := hV.back m hm (m - j) (by omega) i hi
      simp only at this ⊢
      rw [pay (m := m) (a1 (i := i) hj) (a2 (i := i) hj), this]
      have e1 : m + 1 - j = m - j + 1 := by omega
      have e2 : m + 1 - (j + 1) = m - j := by omega
      rw [e1, e2]
      have e3 : ∀ p q s t : ℝ, p + q + s + t = q + p + t + s := fun p q s t => by ring
      rw [e3]
      rfl

/-- A one-step option on the product of the two prices, with correlation 3/5. -/
noncomputable def productOption : Opt :=
  { S1 := 1, S2 := 1, t := 1, r := 0, b1 := 1 / 2, b2 := 2, sigma1 := 1, sigma2 := 2, rho := 3 / 5, K := some 0, K2 := none,
    Q1 := 1, Q2 := 1, option := .product, otype := "european", n := 1 }

theorem one_step {o : Opt} {isCall : Bool} {f : ℝ → ℝ → ℝ} (hf : PaysOff o isCall f) (hn : o.n = 1) (hE : o.otype ≠ "american") :
    price o isCall = .ok (exp (-o.r * (o.t / o.n)) * ((f (asset1 o 1 0) (asset2 o 1 0 0) + f (asset1 o 1 1) (asset2 o 1 1 0)
      + f (asset1 o 1 0) (asset2 o 1 0 1) + f (asset1 o 1 1) (asset2 o 1 1 1)) / 4)) := by
  obtain ⟨V, hV, hx⟩ := priced hf (by omega)
  rw [hn] at hV
  have := hV.back 0 one_pos 0 le_rfl 0 le_rfl
  have hF : decide (o.otype = "american") = false := by simpa using hE
  simp only [hF, Bool.false_eq_true, if_false, zero_add] at this
  rw [hV.terminal 0 (by omega) 0 (by omega), hV.terminal 1 le_rfl 0 (by omega), hV.terminal 0 (by omega) 1 le_rfl,
    hV.terminal 1 le_rfl 1 le_rfl] at this
  rw [hx, this, hn]

theorem sqrt_four_fifths : √(1 - (3 / 5 : ℝ) ^ 2) = 4 / 5 := by
  rw [show (1 - (3 / 5 : ℝ) ^ 2) = (4 / 5) ^ 2 by norm_num, sqrt_sq (by norm_num)]

theorem product_price : price productOption true
    = .ok ((exp (-19 / 5) + exp (3 / 5) + exp (-3 / 5) + exp (19 / 5)) / 4) ∧
    price (swapAssets productOption) true = .ok ((exp (-17 / 5) + exp (9 / 5) + exp (-9 / 5) + exp (17 / 5)) / 4) := by
  obtain ⟨h, h'⟩ := swap_documented (o := productOption) (.inr (.inr (.inr (.inr rfl))))
    ⟨fun _ => rfl, fun h => by simp [productOption] at h⟩ true
  have key : ∀ {x y a b c : ℝ}, x = exp a → y = exp b → a + b = c → max 0 (1 * x * (1 * y) - 0) = exp c := fun e1 e2 e => by
    rw [e1, e2, one_mul, one_mul, ← exp_add, e, sub_zero, max_eq_right (exp_pos _).le]
  have a1 : ∀ j : ℕ, asset1 productOption 1 j = exp (2 * j - 1) := fun j => by simp [asset1, productOption]
  have a2 : ∀ j i : ℕ, asset2 productOption 1 j i = exp (2 * (3 / 5 * (2 * j - 1) + 4 / 5 * (2 * i - 1))) := fun j i => by
    simp only [asset2, productOption, sqrt_four_fifths]; norm_num
  have b1 : ∀ j : ℕ, asset1 (swapAssets productOption) 1 j = exp (2 * (2 * j - 1)) := fun j => by
    simp only [asset1, swapAssets, productOption]; norm_num
  have b2 : ∀ j i : ℕ, asset2 (swapAssets productOption) 1 j i = exp (3 / 5 * (2 * j - 1) + 4 / 5 * (2 * i - 1)) := fun j i => by
    simp only [asset2, swapAssets, productOption, sqrt_four_fifths]; norm_num
  have d1 : exp (-productOption.r * (productOption.t / productOption.n)) = 1 := by simp [productOption]
  constructor
  · rw [one_step h.pays rfl (by simp [productOption]), d1, one_mul]
    congr 2
    refine congrArg₂ _ (congrArg₂ _ (congrArg₂ _ ?_ ?_) ?_) ?_
    · exact key (a1 0) (a2 0 0) (by norm_num)
    · exact key (a1 1) (a2 1 0) (by norm_num)
    · exact key (a1 0) (a2 0 1) (by norm_num)
    · exact key (a1 1) (a2 1 1) (by norm_num)
  · rw [one_step h'.pays rfl (by simp [productOption, swapAssets])]
    have d2 : exp (-(swapAssets productOption).r * ((swapAssets productOption).t / (swapAssets productOption).n)) = 1 := d1
    rw [d2, one_mul]
    congr 2
    refine congrArg₂ _ (congrArg₂ _ (congrArg₂ _ ?_ ?_) ?_) ?_
    · exact key (b1 0) (b2 0 0) (by norm_num)
    · exact key (b1 1) (b2 1 0) (by norm_num)
    · exact key (b1 0) (b2 0 1) (by norm_num)
    · exact key (b1 1) (b2 1 1) (by norm_num)

/-- **C127 fails in general.** The product option of this example is dearer when the less volatile asset is named first:
the lattice correlates the second asset with the moves of the first, not the other way round. -/
theorem C127_fails : ∃ x y, price productOption true = .ok x ∧ price (swapAssets productOption) true = .ok y ∧ y < x := by
  obtain ⟨h, h'⟩ := product_price
  refine ⟨_, _, h, h', ?_⟩
  have e1 : exp (19 / 5 : ℝ) = exp (2 / 5) * exp (17 / 5) := by rw [← exp_add]; norm_num
  have e2 : exp (17 / 5 : ℝ) = exp (8 / 5) * exp (9 / 5) := by rw [← exp_add]; norm_num
  have h1 : (7 / 5 : ℝ) ≤ exp (2 / 5) := by linarith [add_one_le_exp (2 / 5 : ℝ)]
  have h2 : (3.88 : ℝ) ≤ exp (8 / 5) := by
    have := quadratic_le_exp_of_nonneg (x := (8 / 5 : ℝ)) (by norm_num)
    norm_num at this ⊢
    linarith
  have h3 : (14 / 5 : ℝ) ≤ exp (9 / 5) := by linarith [add_one_le_exp (9 / 5 : ℝ)]
  have h4 : exp (-9 / 5 : ℝ) ≤ 1 := exp_le_one_iff.2 (by norm_num)
  have h5 : exp (-17 / 5 : ℝ) ≤ 1 := exp_le_one_iff.2 (by norm_num)
  have h6 : (1 : ℝ) ≤ exp (3 / 5) := one_le_exp (by norm_num)
  have h7 := exp_pos (-19 / 5 : ℝ)
  have h8 := exp_pos (-3 / 5 : ℝ)
  have h9 := mul_le_mul_of_nonneg_right h2 (exp_pos (9 / 5)).le
  have h10 := mul_le_mul_of_nonneg_right h1 (exp_pos (17 / 5)).le
  linarith

end Verif.Props
