import Verif.Lemmas.SmoothLip
import Verif.Lemmas.LatticeRate
import Verif.Spec.American

/-!
Dynamic programming with exercise at some of the dates, for a put payoff in log-price and an arbitrary one-step operator:
what waiting for the next date costs, and how errors of the operator accumulate.
-/
namespace Verif
open Real MeasureTheory ProbabilityTheory Spec Set

/-- Payoff of a put in terms of the logarithm of spot over strike. -/
noncomputable def putG1 (y : ℝ) : ℝ := max (1 - exp y) 0

theorem nice_put : Nice putG1 where
  nonneg _ := le_max_right _ _
  le_one y := max_le (by have := exp_pos y; linarith) zero_le_one
  lip x y := put_lip x y

theorem Nice.max {f g : ℝ → ℝ} (hf : Nice f) (hg : Nice g) : Nice (fun y => max (f y) (g y)) where
  nonneg x := (hf.nonneg x).trans (le_max_left _ _)
  le_one x := max_le (hf.le_one x) (hg.le_one x)
  lip x y := (abs_max_sub_max_le_max _ _ _ _).trans (max_le (hf.lip x y) (hg.lip x y))

/-- What is used of a one-step operator with discount `D` and discounted mean `M` of the price. -/
structure StepOp (D M : ℝ) (T : (ℝ → ℝ) → ℝ → ℝ) : Prop where
  nice : ∀ {f}, Nice f → Nice (T f)
  shift : ∀ {f f'}, Nice f → Nice f' → ∀ {c}, 0 ≤ c → (∀ y, f y ≤ f' y + c) → ∀ y, T f y ≤ T f' y + c
  affine : ∀ {f}, Nice f → ∀ {α β}, 0 ≤ β → (∀ y, α - β * exp y ≤ f y) → ∀ y, D * α - M * β * exp y ≤ T f y

/-- Value with `j` steps to go when exercise is allowed at the dates marked by `ex`. -/
noncomputable def dp (T : (ℝ → ℝ) → ℝ → ℝ) (ex : ℕ → Prop) [DecidablePred ex] : ℕ → ℝ → ℝ
  | 0 => putG1
  | j + 1 => if ex (j + 1) then fun y => max (putG1 y) (T (dp T ex j) y) else T (dp T ex j)

variable {D M : ℝ} {T T' : (ℝ → ℝ) → ℝ → ℝ}

theorem StepOp.dp_nice (hT : StepOp D M T) (ex : ℕ → Prop) [DecidablePred ex] (j : ℕ) : Nice (dp T ex j) := by
  induction j with
  | zero => exact nice_put
  | succ j ih =>
    simp only [dp]
    split_ifs
    · exact nice_put.max (hT.nice ih)
    · exact hT.nice ih

theorem StepOp.dp_mono (hT : StepOp D M T) {ex ex' : ℕ → Prop} [DecidablePred ex] [DecidablePred ex']
    (h : ∀ j, ex j → ex' j) (j : ℕ) (y : ℝ) : dp T ex j y ≤ dp T ex' j y := by
  induction j generalizing y with
  | zero => exact le_rfl
  | succ j ih =>
    have h1 := hT.shift (hT.dp_nice ex j) (hT.dp_nice ex' j) le_rfl (fun y => by simpa using ih y) y
    rw [add_zero] at h1
    by_cases he : ex (j + 1)
    · simp only [dp, if_pos he, if_pos (h _ he)]; exact max_le_max le_rfl h1
    · by_cases he' : ex' (j + 1)
      · simp only [dp, if_neg he, if_pos he']; exact h1.trans (le_max_right _ _)
      · simp only [dp, if_neg he, if_neg he']; exact h1

/-- Exercise at every `k`-th date. -/
def every (k : ℕ) (j : ℕ) : Prop := k ∣ j

instance (k : ℕ) : DecidablePred (every k) := fun j => inferInstanceAs (Decidable (k ∣ j))

/-- Between exercise dates the value is at least that of exercising at the next one. -/
theorem StepOp.dp_ge (hT : StepOp D M T) {k : ℕ} (hk : 0 < k) (hM : 0 ≤ M) (j : ℕ) (y : ℝ) :
    D ^ (j % k) - M ^ (j % k) * exp y ≤ dp T (every k) j y := by
  induction j generalizing y with
  | zero => simp only [Nat.zero_mod, pow_zero, one_mul, dp]; exact le_max_left _ _
  | succ j ih =>
    by_cases he : k ∣ j + 1
    · have e : (j + 1) % k = 0 := Nat.mod_eq_zero_of_dvd he
      simp only [dp, if_pos (show every k (j + 1) from he), e, pow_zero, one_mul]
      exact (le_max_left _ _).trans (le_max_left _ _)
    · have e : (j + 1) % k = j % k + 1 := by
        have h1 := Nat.mod_lt j hk
        rw [Nat.add_mod]
        rcases Nat.lt_or_ge 1 k with h2 | h2
        · rw [Nat.mod_eq_of_lt h2]
          rcases Nat.lt_or_ge (j % k + 1) k with h3 | h3
          · exact Nat.mod_eq_of_lt h3
          · exfalso; apply he
            have : j % k + 1 = k := by omega
            rw [Nat.dvd_iff_mod_eq_zero, Nat.add_mod, Nat.mod_eq_of_lt h2, this, Nat.mod_self]
        · exfalso; apply he
          have : k = 1 := by omega
          rw [this]; exact one_dvd _
      simp only [dp, if_neg (show ¬ every k (j + 1) from he), e]
      have := hT.affine (hT.dp_nice (every k) j) (pow_nonneg hM _) ih y
      rw [pow_succ', pow_succ']
      exact this

/-- **Waiting**: exercise at every `k`-th date only costs at most `κ`. -/
theorem StepOp.dp_wait (hT : StepOp D M T) {k : ℕ} (hk : 0 < k) (hM : 0 ≤ M) {κ : ℝ}
    (hκ : ∀ q < k, 1 - D ^ q + max (M ^ q - 1) 0 ≤ κ) (j : ℕ) (y : ℝ) :
    dp T (every 1) j y ≤ dp T (every k) j y + κ := by
  have hκ0 : 0 ≤ κ := by simpa using hκ 0 hk
  induction j generalizing y with
  | zero => simp only [dp]; linarith
  | succ j ih =>
    have h1 := hT.shift (hT.dp_nice (every 1) j) (hT.dp_nice (every k) j) hκ0 ih y
    have h2 : T (dp T (every k) j) y ≤ dp T (every k) (j + 1) y := by
      simp only [dp]
      split_ifs
      · exact le_max_right _ _
      · exact le_rfl
    have h3 : putG1 y ≤ dp T (every k) (j + 1) y + κ := by
      have hn := (hT.dp_nice (every k) (j + 1)).nonneg y
      refine max_le ?_ (by linarith)
      have hg := hT.dp_ge hk hM (j + 1) y
      have hq := hκ ((j + 1) % k) (Nat.mod_lt _ hk)
      generalize (j + 1) % k = q at *
      rcases le_or_gt 1 (exp y) with hy | hy
      · linarith
      · have h4 : (M ^ q - 1) * exp y ≤ max (M ^ q - 1) 0 := by
          calc (M ^ q - 1) * exp y ≤ max (M ^ q - 1) 0 * exp y :=
                mul_le_mul_of_nonneg_right (le_max_left _ _) (exp_pos y).le
            _ ≤ max (M ^ q - 1) 0 * 1 := mul_le_mul_of_nonneg_left hy.le (le_max_right _ _)
            _ = _ := mul_one _
        linarith
    have e : dp T (every 1) (j + 1) y = max (putG1 y) (T (dp T (every 1) j) y) := by
      rw [dp, if_pos (show every 1 (j + 1) from one_dvd _)]
    rw [e]
    exact max_le h3 (by linarith)

theorem StepOp.iter_nice (hT : StepOp D M T) {f : ℝ → ℝ} (hf : Nice f) (i : ℕ) : Nice (T^[i] f) := by
  induction i with
  | zero => exact hf
  | succ i ih => rw [Function.iterate_succ_apply']; exact hT.nice ih

theorem StepOp.iter_shift (hT : StepOp D M T) {f f' : ℝ → ℝ} (hf : Nice f) (hf' : Nice f') {c : ℝ} (hc : 0 ≤ c)
    (h : ∀ y, f y ≤ f' y + c) (i : ℕ) (y : ℝ) : T^[i] f y ≤ T^[i] f' y + c := by
  induction i generalizing y with
  | zero => exact h y
  | succ i ih =>
    rw [Function.iterate_succ_apply', Function.iterate_succ_apply']
    exact hT.shift (hT.iter_nice hf i) (hT.iter_nice hf' i) hc ih y

theorem StepOp.iter_close (hT : StepOp D M T) {f f' : ℝ → ℝ} (hf : Nice f) (hf' : Nice f') {c : ℝ} (hc : 0 ≤ c)
    (h : ∀ y, |f y - f' y| ≤ c) (i : ℕ) (y : ℝ) : |T^[i] f y - T^[i] f' y| ≤ c := by
  have h1 := hT.iter_shift hf hf' hc (fun y => by linarith [(abs_le.1 (h y)).2]) i y
  have h2 := hT.iter_shift hf' hf hc (fun y => by linarith [(abs_le.1 (h y)).1]) i y
  exact abs_le.2 ⟨by linarith, by linarith⟩

/-- Between two exercise dates the recursion only iterates the operator. -/
theorem dp_inner (T : (ℝ → ℝ) → ℝ → ℝ) {k : ℕ} (q i : ℕ) (hi : i < k) :
    dp T (every k) (q * k + i) = T^[i] (dp T (every k) (q * k)) := by
  induction i with
  | zero => rfl
  | succ i ih =>
    have he : ¬ every k (q * k + i + 1) := by
      intro h
      have h1 : k ∣ i + 1 := by
        have := (Nat.dvd_add_right (Dvd.intro_left q rfl : k ∣ q * k)).1 (by simpa [every, add_assoc] using h)
        exact this
      exact absurd (Nat.le_of_dvd (Nat.succ_pos _) h1) (by omega)
    rw [← add_assoc, dp, if_neg he, ih (by omega), Function.iterate_succ_apply']

theorem dp_block (T : (ℝ → ℝ) → ℝ → ℝ) {k : ℕ} (hk : 0 < k) (q : ℕ) :
    dp T (every k) ((q + 1) * k) = fun y => max (putG1 y) (T^[k] (dp T (every k) (q * k)) y) := by
  obtain ⟨i, rfl⟩ : ∃ i, k = i + 1 := ⟨k - 1, by omega⟩
  have e : (q + 1) * (i + 1) = q * (i + 1) + i + 1 := by ring
  have he : every (i + 1) (q * (i + 1) + i + 1) := ⟨q + 1, by ring⟩
  rw [e, dp, if_pos he, dp_inner T q i (by omega), Function.iterate_succ_apply']

/-- **Accumulated error** of using `T` in place of `T'`. -/
theorem StepOp.dp_compare {D' M' : ℝ} (hT : StepOp D M T) (hT' : StepOp D' M' T') {k : ℕ} (hk : 0 < k) {E : ℝ}
    (hE0 : 0 ≤ E) (hE : ∀ f, Nice f → ∀ i ≤ k, ∀ y, |T^[i] f y - T'^[i] f y| ≤ E) (j : ℕ) (y : ℝ) :
    |dp T (every k) j y - dp T' (every k) j y| ≤ ((j / k : ℕ) + 1) * E := by
  have step : ∀ (q : ℕ) (f f' : ℝ → ℝ), Nice f → Nice f' → (∀ y, |f y - f' y| ≤ q * E) → ∀ i ≤ k, ∀ y,
      |T^[i] f y - T'^[i] f' y| ≤ (q + 1) * E := by
    intro q f f' hf hf' h i hi y
    have h1 := hT.iter_close hf hf' (by positivity) h i y
    have h2 := hE f' hf' i hi y
    calc |T^[i] f y - T'^[i] f' y| = |(T^[i] f y - T^[i] f' y) + (T^[i] f' y - T'^[i] f' y)| := by congr 1; ring
      _ ≤ _ := abs_add_le _ _
      _ ≤ q * E + E := add_le_add h1 h2
      _ = _ := by ring
  have blocks : ∀ (q : ℕ) y, |dp T (every k) (q * k) y - dp T' (every k) (q * k) y| ≤ q * E := by
    intro q
    induction q with
    | zero => intro y; simp [dp]
    | succ q ih =>
      intro y
      rw [dp_block T hk, dp_block T' hk]
      have := step q _ _ (hT.dp_nice (every k) (q * k)) (hT'.dp_nice (every k) (q * k)) ih k le_rfl y
      push_cast
      refine (abs_max_sub_max_le_max _ _ _ _).trans (max_le ?_ this)
      rw [sub_self, abs_zero]; positivity
  have e : j = j / k * k + j % k := by rw [mul_comm]; exact (Nat.div_add_mod j k).symm
  have hlt := Nat.mod_lt j hk
  have h := step (j / k) _ _ (hT.dp_nice (every k) (j / k * k)) (hT'.dp_nice (every k) (j / k * k))
    (blocks (j / k)) (j % k) hlt.le y
  rw [← dp_inner T _ _ hlt, ← dp_inner T' _ _ hlt, ← e] at h
  exact h

end Verif
