import Verif.Lemmas.TianRate
import Verif.Props.TreeLimit

/-!
C94: how far a European tree price with `n` steps can be from the Black–Scholes value, with explicit constants and for
every `n` (C68 only gives the limit), and what follows for the number of steps to take and for American calls.
-/
namespace Verif.Props
open Verif Verif.Spec Real MeasureTheory ProbabilityTheory Filter _root_.Verif.Tree
open scoped Topology

theorem parity_transfer {isCall : Bool} {S K t r b σ x y E : ℝ} (ht : 0 < t)
    (hxy : x - y = S * exp ((b - r) * t) - K * exp (-r * t)) (hy : |y - bsPut S K t r b σ| ≤ E) :
    |(if isCall then x else y) - bsPrice isCall S K t r b σ| ≤ E := by
  cases isCall
  · simpa [bsPrice] using hy
  · have h := bsCall_sub_bsPut (S := S) (K := K) (t := t) (r := r) (b := b) (σ := σ) ht.le
    have e : (if (true : Bool) then x else y) - bsPrice true S K t r b σ = y - bsPut S K t r b σ := by
      simp only [if_true, bsPrice]; linarith
    rw [e]; exact hy

/-- **C94** (`CRRBinomialTreeOption`). If `(|b| + σ²/2) √(t/n) ≤ σ`, the European price with `n` steps is within
`K e^{-rt} σ √(t/n) (4 + 17 θ√t (1 + σ√t))`, `θ = (|b| + σ²/2)/σ`, of the Black–Scholes value, calls and puts. -/
theorem C94_crr (isCall : Bool) {S K t σ : ℝ} (h : Valid S K t σ) (r b : ℝ) {n : ℕ} (hn : 0 < n)
    (hs : (|b| + σ ^ 2 / 2) / σ * √(t / n) ≤ 1) :
    ∃ x, price .crr ⟨S, K, t, r, b, σ, "european", n⟩ isCall = .ok x ∧
      |x - bsPrice isCall S K t r b σ| ≤ K * exp (-r * t) * (σ * √(t / n))
        * (4 + 17 * ((|b| + σ ^ 2 / 2) / σ * √t) * (1 + σ * √t)) := by
  have hV : TreeValid (steps S K t r b σ n) := ⟨h.t, h.σ, hn⟩
  obtain ⟨x, y, hx, hy, hxy⟩ := C19_parity .crr (Or.inl rfl) (steps S K t r b σ n) hV rfl
  have hb : |b| * √(t / n) ≤ σ := by
    rw [div_mul_eq_mul_div, div_le_one h.σ] at hs
    have : 0 ≤ σ ^ 2 / 2 * √(t / n) := by positivity
    linarith
  obtain ⟨p0, p1⟩ := crr_prob hV hb
  obtain ⟨V, hval⟩ := exists_val false false S K (factors .crr (steps S K t r b σ n)).u
    (factors .crr (steps S K t r b σ n)).d (factors .crr (steps S K t r b σ n)).p
    (factors .crr (steps S K t r b σ n)).Df n
  have hyV := price_val (o := steps S K t r b σ n) (am := false) hV.ne rfl hval
  rw [hy] at hyV
  have hyV : y = V 0 0 := by injection hyV
  have key := crr_rate (r := r) h.S h.K h.t h.σ hn rfl hs (d := (factors .crr (steps S K t r b σ n)).d) rfl crr_d rfl p0 p1 hval
  rw [← hyV] at key
  refine ⟨if isCall then x else y, ?_, parity_transfer h.t hxy key⟩
  cases isCall
  · exact hy
  · exact hx

/-- **C94** (`TrinomialTreeOption`): its `n` steps are worth `2n` CRR steps. -/
theorem C94_trinomial (isCall : Bool) {S K t σ : ℝ} (h : Valid S K t σ) (r b : ℝ) {n : ℕ} (hn : 0 < n)
    (hs : (|b| + σ ^ 2 / 2) / σ * √(t / (2 * n)) ≤ 1) :
    ∃ x, price3 ⟨S, K, t, r, b, σ, "european", n⟩ isCall = .ok x ∧
      |x - bsPrice isCall S K t r b σ| ≤ K * exp (-r * t) * (σ * √(t / (2 * n)))
        * (4 + 17 * ((|b| + σ ^ 2 / 2) / σ * √t) * (1 + σ * √t)) := by
  have e : ((2 * n : ℕ) : ℝ) = 2 * n := by push_cast; ring
  rw [C25_trinomial_eq_crr _ ⟨h.t, h.σ, hn⟩ rfl]
  have := C94_crr isCall h r b (n := 2 * n) (by omega) (by rw [e]; exact hs)
  rw [e] at this
  exact this

/-- **C94** (`TIANBinomialTreeOption`). Every carry rate, `σ² t/n ≤ 1/5`. -/
theorem C94_tian (isCall : Bool) {S K t σ : ℝ} (h : Valid S K t σ) (r b : ℝ) {n : ℕ} (hn : 0 < n)
    (hs : σ ^ 2 * (t / n) ≤ 1 / 5) :
    ∃ x, price .tian ⟨S, K, t, r, b, σ, "european", n⟩ isCall = .ok x ∧
      |x - bsPrice isCall S K t r b σ| ≤ K * exp (-r * t) * (σ * √(t / n))
        * (11 + 77 * (σ * √t) + 72 * (σ * √t) ^ 2) := by
  have hV : TreeValid (steps S K t r b σ n) := ⟨h.t, h.σ, hn⟩
  obtain ⟨x, y, hx, hy, hxy⟩ := C19_parity .tian (Or.inr rfl) (steps S K t r b σ n) hV rfl
  obtain ⟨p0, p1⟩ := tian_prob hV
  obtain ⟨V, hval⟩ := exists_val false false S K (factors .tian (steps S K t r b σ n)).u
    (factors .tian (steps S K t r b σ n)).d (factors .tian (steps S K t r b σ n)).p
    (factors .tian (steps S K t r b σ n)).Df n
  have hyV := price_val (o := steps S K t r b σ n) (am := false) hV.ne rfl hval
  rw [hy] at hyV
  have hyV : y = V 0 0 := by injection hyV
  have key := tian_rate (r := r) h.S h.K h.t h.σ hn hs rfl rfl rfl rfl rfl p0.le p1.le hval
  rw [← hyV] at key
  refine ⟨if isCall then x else y, ?_, parity_transfer h.t hxy key⟩
  cases isCall
  · exact hy
  · exact hx

/-- **C94** (`JRBinomialTreeOption`, puts). No condition on the step. -/
theorem C94_jr_put {S K t σ : ℝ} (h : Valid S K t σ) (r b : ℝ) {n : ℕ} (hn : 0 < n) :
    ∃ x, price .jr ⟨S, K, t, r, b, σ, "european", n⟩ false = .ok x ∧
      |x - bsPut S K t r b σ| ≤ K * exp (-r * t) * (σ * √(t / n)) * (3 + (σ * √t) ^ 3) := by
  obtain ⟨V, hval⟩ := exists_val false false S K (factors .jr (steps S K t r b σ n)).u
    (factors .jr (steps S K t r b σ n)).d (factors .jr (steps S K t r b σ n)).p
    (factors .jr (steps S K t r b σ n)).Df n
  exact ⟨_, price_val (o := steps S K t r b σ n) (am := false) hn.ne' rfl hval, jr_rate h.S h.K h.t h.σ hn hval⟩

/-- Drift lost by the JR lattice, which is not quite a martingale lattice (C19). -/
theorem jr_drift {S t σ c : ℝ} (hS : 0 < S) (ht : 0 < t) {n : ℕ} (hn : 0 < n) :
    |S * (exp ((c - σ ^ 2 / 2) * (t / n)) * cosh (σ * √(t / n))) ^ n - S * exp (c * t)|
      ≤ S * exp (c * t) * ((σ * √t) ^ 4 / (4 * n)) := by
  have hn' : (0 : ℝ) < n := by exact_mod_cast hn
  have hdt : 0 < t / n := by positivity
  set a := (σ * √(t / n)) ^ 2 / 2 with ha
  have ha' : a = σ ^ 2 / 2 * (t / n) := by rw [ha, mul_pow, sq_sqrt hdt.le]; ring
  have e1 : exp ((c - σ ^ 2 / 2) * (t / n)) = exp (c * (t / n)) * exp (-a) := by
    rw [← exp_add, ha']; congr 1; ring
  have e2 : S * (exp ((c - σ ^ 2 / 2) * (t / n)) * cosh (σ * √(t / n))) ^ n - S * exp (c * t)
      = -(S * exp (c * t) * (1 - (exp (-a) * cosh (σ * √(t / n))) ^ n)) := by
    rw [e1, mul_assoc, mul_pow (exp (c * (t / n))), exp_div_pow _ _ hn.ne']; ring
  have hq0 : 0 ≤ exp (-a) * cosh (σ * √(t / n)) := mul_nonneg (exp_pos _).le (cosh_pos _).le
  have hq1 : exp (-a) * cosh (σ * √(t / n)) ≤ 1 := by
    have := cosh_le_exp_half_sq (σ * √(t / n))
    rw [← ha] at this
    calc exp (-a) * cosh (σ * √(t / n)) ≤ exp (-a) * exp a := mul_le_mul_of_nonneg_left this (exp_pos _).le
      _ = 1 := by rw [← exp_add]; simp
  have hq2 : 1 - a ^ 2 ≤ exp (-a) * cosh (σ * √(t / n)) := by
    have h1 : 1 + a ≤ cosh (σ * √(t / n)) := by
      have h1 := cosh_sq (σ * √(t / n) / 2)
      have h2 := cosh_two_mul (σ * √(t / n) / 2)
      have h3 : (σ * √(t / n) / 2) ^ 2 ≤ sinh (σ * √(t / n) / 2) ^ 2 := by
        rw [sq_le_sq, abs_sinh]
        exact self_le_sinh_iff.2 (abs_nonneg _)
      rw [mul_div_cancel₀ _ two_ne_zero] at h2
      rw [h2, h1, ha]
      nlinarith
    have h2 : 1 - a ≤ exp (-a) := by have := add_one_le_exp (-a); linarith
    have ha0 : 0 ≤ a := by rw [ha]; positivity
    calc 1 - a ^ 2 = (1 - a) * (1 + a) := by ring
      _ ≤ exp (-a) * (1 + a) := mul_le_mul_of_nonneg_right h2 (by linarith)
      _ ≤ _ := mul_le_mul_of_nonneg_left h1 (exp_pos _).le
  have hpow : 1 - n * a ^ 2 ≤ (exp (-a) * cosh (σ * √(t / n))) ^ n := by
    rcases le_or_gt (a ^ 2) 1 with h1 | h1
    · have := one_add_mul_le_pow (by linarith : (-2 : ℝ) ≤ -a ^ 2) n
      calc 1 - n * a ^ 2 = 1 + n * (-a ^ 2) := by ring
        _ ≤ (1 + -a ^ 2) ^ n := this
        _ ≤ _ := pow_le_pow_left₀ (by linarith) (by linarith) n
    · have : (1 : ℝ) ≤ n := by exact_mod_cast hn
      refine le_trans ?_ (pow_nonneg hq0 n)
      nlinarith
  have hle : (exp (-a) * cosh (σ * √(t / n))) ^ n ≤ 1 := pow_le_one₀ hq0 hq1
  have hSe : 0 ≤ S * exp (c * t) := by positivity
  rw [e2, abs_neg, abs_of_nonneg (mul_nonneg hSe (by linarith))]
  refine mul_le_mul_of_nonneg_left ?_ hSe
  have e3 : (n : ℝ) * a ^ 2 = (σ * √t) ^ 4 / (4 * n) := by
    have : (σ * √t) ^ 4 = σ ^ 4 * t ^ 2 := by
      rw [mul_pow, show √t ^ 4 = (√t ^ 2) ^ 2 by ring, sq_sqrt ht.le]
    rw [this, ha']; field_simp; ring
  linarith

/-- **C94** (`JRBinomialTreeOption`, calls): the missing drift adds a term of order `1/n`. -/
theorem C94_jr_call {S K t σ : ℝ} (h : Valid S K t σ) (r b : ℝ) {n : ℕ} (hn : 0 < n) :
    ∃ x, price .jr ⟨S, K, t, r, b, σ, "european", n⟩ true = .ok x ∧
      |x - bsCall S K t r b σ| ≤ K * exp (-r * t) * (σ * √(t / n)) * (3 + (σ * √t) ^ 3)
        + S * exp ((b - r) * t) * ((σ * √t) ^ 4 / (4 * n)) := by
  obtain ⟨x, y, hx, hy, hxy⟩ := C19_jr_forward (steps S K t r b σ n) ⟨h.t, h.σ, hn⟩ rfl
  obtain ⟨y', hy', hb⟩ := C94_jr_put h r b hn
  have hyy : y' = y := by
    have := hy'.symm.trans hy
    injection this
  subst hyy
  refine ⟨x, hx, ?_⟩
  have hp := bsCall_sub_bsPut (S := S) (K := K) (r := r) (b := b) (σ := σ) h.t.le
  have hd := jr_drift (σ := σ) (c := b - r) h.S h.t hn
  have hxy' : x - y' = S * (exp ((b - r - σ ^ 2 / 2) * (t / n)) * cosh (σ * √(t / n))) ^ n - K * exp (-r * t) := by
    rw [hxy]
    simp only [steps]
    rw [show (b - σ ^ 2 / 2 - r) * (t / n) = (b - r - σ ^ 2 / 2) * (t / n) by ring]
  have e : x - bsCall S K t r b σ = (y' - bsPut S K t r b σ)
      + (S * (exp ((b - r - σ ^ 2 / 2) * (t / n)) * cosh (σ * √(t / n))) ^ n - S * exp ((b - r) * t)) := by linarith
  rw [e]
  exact (abs_add_le _ _).trans (add_le_add hb hd)

/-- **C94**, number of steps: an accuracy `ε` is guaranteed once `n ≥ t (K e^{-rt} σ C / ε)²` and the step is short
enough, `C = 4 + 17 θ√t (1 + σ√t)`. -/
theorem C94_enough_steps (isCall : Bool) {S K t σ : ℝ} (h : Valid S K t σ) (r b : ℝ) {n : ℕ} (hn : 0 < n) {ε : ℝ}
    (hε : 0 < ε) (hs : t * ((|b| + σ ^ 2 / 2) / σ) ^ 2 ≤ n)
    (hN : t * (K * exp (-r * t) * σ * (4 + 17 * ((|b| + σ ^ 2 / 2) / σ * √t) * (1 + σ * √t)) / ε) ^ 2 ≤ n) :
    ∃ x, price .crr ⟨S, K, t, r, b, σ, "european", n⟩ isCall = .ok x ∧ |x - bsPrice isCall S K t r b σ| ≤ ε := by
  have hn' : (0 : ℝ) < n := by exact_mod_cast hn
  have hS := h.S; have hK := h.K; have ht := h.t; have hσ := h.σ
  have root : ∀ q : ℝ, 0 ≤ q → t * q ^ 2 ≤ n → q * √(t / n) ≤ 1 := fun q hq hle => by
    have h1 : (q * √(t / n)) ^ 2 ≤ 1 := by
      rw [mul_pow, sq_sqrt (by positivity), mul_div_assoc', div_le_one hn']; linarith
    nlinarith [mul_nonneg hq (sqrt_nonneg (t / n))]
  obtain ⟨x, hx, hb⟩ := C94_crr isCall h r b hn (root _ (by positivity) hs)
  refine ⟨x, hx, hb.trans ?_⟩
  have := root _ (by positivity) hN
  have e : K * exp (-r * t) * (σ * √(t / n)) * (4 + 17 * ((|b| + σ ^ 2 / 2) / σ * √t) * (1 + σ * √t))
      = ε * (K * exp (-r * t) * σ * (4 + 17 * ((|b| + σ ^ 2 / 2) / σ * √t) * (1 + σ * √t)) / ε * √(t / n)) := by
    field_simp
  rw [e]
  calc _ ≤ ε * 1 := mul_le_mul_of_nonneg_left this hε.le
    _ = ε := mul_one ε

/-- **C94**, American calls: with `0 ≤ r ≤ b` the American CRR call is as close to the Black–Scholes call. -/
theorem C94_american_call {S K t σ : ℝ} (h : Valid S K t σ) {r b : ℝ} (hr : 0 ≤ r) (hb : r ≤ b) {n : ℕ} (hn : 0 < n)
    (hs : (|b| + σ ^ 2 / 2) / σ * √(t / n) ≤ 1) :
    ∃ x, price .crr ⟨S, K, t, r, b, σ, "american", n⟩ true = .ok x ∧
      |x - bsCall S K t r b σ| ≤ K * exp (-r * t) * (σ * √(t / n))
        * (4 + 17 * ((|b| + σ ^ 2 / 2) / σ * √t) * (1 + σ * √t)) := by
  have hbs : |b| * √(t / n) ≤ σ := by
    rw [div_mul_eq_mul_div, div_le_one h.σ] at hs
    have : 0 ≤ σ ^ 2 / 2 * √(t / n) := by positivity
    linarith
  have e := C22_no_early_exercise .crr (Or.inl rfl) (steps S K t r b σ n) ⟨h.t, h.σ, hn⟩ (fun _ => hbs) h.S.le h.K.le hr hb
  obtain ⟨x, hx, hx'⟩ := C94_crr true h r b hn hs
  exact ⟨x, e.trans hx, hx'⟩

/-- **C94** for American calls of the TIAN class. -/
theorem C94_american_call_tian {S K t σ : ℝ} (h : Valid S K t σ) {r b : ℝ} (hr : 0 ≤ r) (hb : r ≤ b) {n : ℕ} (hn : 0 < n)
    (hs : σ ^ 2 * (t / n) ≤ 1 / 5) :
    ∃ x, price .tian ⟨S, K, t, r, b, σ, "american", n⟩ true = .ok x ∧
      |x - bsCall S K t r b σ| ≤ K * exp (-r * t) * (σ * √(t / n)) * (11 + 77 * (σ * √t) + 72 * (σ * √t) ^ 2) := by
  have e := C22_no_early_exercise .tian (Or.inr rfl) (steps S K t r b σ n) ⟨h.t, h.σ, hn⟩ (fun h => by cases h)
    h.S.le h.K.le hr hb
  obtain ⟨x, hx, hx'⟩ := C94_tian true h r b hn hs
  exact ⟨x, e.trans hx, hx'⟩

/-- **C94** across classes: CRR tree and `GBSOption` prices differ by at most the tree's error plus that of `CND`. -/
theorem C94_gbs (isCall : Bool) {S K t σ : ℝ} (h : Valid S K t σ) (r b : ℝ) {n : ℕ} (hn : 0 < n)
    (hs : (|b| + σ ^ 2 / 2) / σ * √(t / n) ≤ 1) :
    ∃ x g, price .crr ⟨S, K, t, r, b, σ, "european", n⟩ isCall = .ok x ∧
      (GBS.new S K t r b (some σ)).price isCall = .ok g ∧
      |x - g| ≤ K * exp (-r * t) * (σ * √(t / n)) * (4 + 17 * ((|b| + σ ^ 2 / 2) / σ * √t) * (1 + σ * √t))
        + 7.5e-8 * (S * exp ((b - r) * t) + K * exp (-r * t)) := by
  obtain ⟨g, hg, he⟩ := C02_price_accuracy h r b isCall
  obtain ⟨x, hx, hb⟩ := C94_crr isCall h r b hn hs
  refine ⟨x, g, hx, hg, ?_⟩
  calc |x - g| = |(x - bsPrice isCall S K t r b σ) - (g - bsPrice isCall S K t r b σ)| := by congr 1; ring
    _ ≤ |x - bsPrice isCall S K t r b σ| + |g - bsPrice isCall S K t r b σ| := abs_sub _ _
    _ ≤ _ := add_le_add hb he

/-- The documented contract (`S = K = 50`, five months, `r = b = 0.1`, `σ = 0.4`) with 5 steps meets the conditions. -/
example : Valid (50 : ℝ) 50 (5 / 12) (2 / 5) ∧ (2 / 5 : ℝ) ^ 2 * (5 / 12 / (5 : ℕ)) ≤ 1 / 5 ∧
    (|(1 / 10 : ℝ)| + (2 / 5) ^ 2 / 2) / (2 / 5) * √(5 / 12 / (5 : ℕ)) ≤ 1 := by
  refine ⟨⟨by norm_num, by norm_num, by norm_num, by norm_num⟩, by norm_num, ?_⟩
  have h : √((5 / 12 : ℝ) / (5 : ℕ)) ≤ 1 := by rw [sqrt_le_one]; norm_num
  have h0 : 0 ≤ √((5 / 12 : ℝ) / (5 : ℕ)) := sqrt_nonneg _
  rw [abs_of_pos (by norm_num)]
  nlinarith

/-- A concrete count: 37 500 steps guarantee an error of at most `0.2` on this at-the-money contract. -/
example : ∃ x, price .crr ⟨50, 50, 5 / 12, 0, 0, 1 / 5, "european", 37500⟩ true = .ok x ∧
    |x - bsCall 50 50 (5 / 12) 0 0 (1 / 5)| ≤ 1 / 5 := by
  have hr : √(5 / 12 : ℝ) ≤ 13 / 20 := by rw [sqrt_le_left (by norm_num)]; norm_num
  have hr0 : 0 ≤ √(5 / 12 : ℝ) := sqrt_nonneg _
  refine C94_enough_steps true ⟨by norm_num, by norm_num, by norm_num, by norm_num⟩ 0 0 (by norm_num) (by norm_num)
    (by norm_num) ?_
  simp only [neg_zero, zero_mul, exp_zero, abs_zero]
  generalize √(5 / 12 : ℝ) = q at *
  have hq : (4 + 17 * ((0 + (1 / 5 : ℝ) ^ 2 / 2) / (1 / 5) * q) * (1 + 1 / 5 * q)) ≤ 6 := by nlinarith
  have hq0 : 0 ≤ (4 + 17 * ((0 + (1 / 5 : ℝ) ^ 2 / 2) / (1 / 5) * q) * (1 + 1 / 5 * q)) := by positivity
  generalize (4 + 17 * ((0 + (1 / 5 : ℝ) ^ 2 / 2) / (1 / 5) * q) * (1 + 1 / 5 * q)) = c at *
  have h1 : (50 * 1 * (1 / 5) * c / (1 / 5)) ^ 2 ≤ 300 ^ 2 := pow_le_pow_left₀ (by positivity) (by linarith) 2
  push_cast
  linarith

end Verif.Props
