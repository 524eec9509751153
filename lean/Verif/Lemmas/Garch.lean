import Verif.Model.HN
import Verif.Spec.HestonNandi

/-!
Loops of `hngarch_sim` and of the filter, as tables of the specification's sequences.
-/
namespace Verif.HN
open Verif Verif.Spec Real

/-- The list `f 0, ..., f (L-1)`. -/
def tab (L : ℕ) (f : ℕ → ℝ) : List ℝ := (List.range L).map f

/-- `f` below `k`, `g` from `k` on. -/
def mix (k : ℕ) (f g : ℕ → ℝ) (i : ℕ) : ℝ := if i < k then f i else g i

@[simp] theorem length_tab (L : ℕ) (f : ℕ → ℝ) : (tab L f).length = L := by simp [tab]

theorem getElem?_tab (L : ℕ) (f : ℕ → ℝ) (i : ℕ) : (tab L f)[i]? = if i < L then some (f i) else none := by
  rw [tab, List.getElem?_map]
  by_cases h : i < L
  · rw [List.getElem?_range h]; simp [h]
  · rw [List.getElem?_eq_none (by simpa using h)]; simp [h]

theorem eq_tab (l : List ℝ) : l = tab l.length (l.getD · 0) := by
  apply List.ext_getElem?
  intro i
  rw [getElem?_tab]
  split
  · rename_i h
    rw [List.getElem?_eq_getElem h]
    simp [List.getD, h]
  · rename_i h
    exact List.getElem?_eq_none (by omega)

theorem tab_congr {L : ℕ} {f g : ℕ → ℝ} (h : ∀ i < L, f i = g i) : tab L f = tab L g := by
  apply List.map_congr_left
  intro i hi
  exact h i (List.mem_range.1 hi)

theorem get_tab {L i : ℕ} (f : ℕ → ℝ) (h : i < L) : get (tab L f) i = .ok (f i) := by
  rw [get, getElem?_tab, if_pos h]

theorem set_tab {L k : ℕ} {f g : ℕ → ℝ} {v : ℝ} (hv : v = f k) :
    (tab L (mix k f g)).set k v = tab L (mix (k + 1) f g) := by
  apply List.ext_getElem?
  intro i
  rw [List.getElem?_set, getElem?_tab, length_tab, getElem?_tab]
  by_cases hik : k = i
  · subst hik
    by_cases hL : k < L
    · simp [hL, mix, hv]
    · simp [hL]
  · rw [if_neg hik]
    have : mix k f g i = mix (k + 1) f g i := by
      have hh : i < k ↔ i < k + 1 := by omega
      simp only [mix, hh]
    rw [this]

theorem put_tab {L k : ℕ} {f g : ℕ → ℝ} {v : ℝ} (h : k < L) (hv : v = f k) :
    put! (tab L (mix k f g)) k v = .ok (tab L (mix (k + 1) f g)) := by
  rw [put!, length_tab, if_pos h, set_tab hv]

theorem put_tab_error {L k : ℕ} {f : ℕ → ℝ} {v : ℝ} (h : ¬ k < L) : put! (tab L f) k v = .error .indexError := by
  rw [put!, length_tab, if_neg h]

theorem mix_zero (f g : ℕ → ℝ) : mix 0 f g = g := by funext i; simp [mix]

theorem mix_lt {k i : ℕ} (h : i < k) (f g : ℕ → ℝ) : mix k f g i = f i := if_pos h

variable (p : Par) (rf : ℝ)

/-! ### Simulation -/

variable (h0 : ℝ) (z : ℕ → ℝ)

/-- Variances of the simulation. -/
noncomputable abbrev H (i : ℕ) : ℝ := hnVar p.omega p.alpha p.beta p.gamma h0 z i

/-- Observations of the simulation. -/
noncomputable abbrev X (i : ℕ) : ℝ := hnObs rf p.lamb (H p h0 z i) (z i)

theorem simBody_eq {L k : ℕ} (hk0 : 0 < k) (hk : k < L) :
    simBody p rf (tab L z) (tab L (mix k (H p h0 z) z), tab L (mix k (X p rf h0 z) z)) k
      = .ok (tab L (mix (k + 1) (H p h0 z) z), tab L (mix (k + 1) (X p rf h0 z) z)) := by
  obtain ⟨m, rfl⟩ : ∃ m, k = m + 1 := ⟨k - 1, by omega⟩
  simp only [simBody, Nat.add_sub_cancel]
  rw [get_tab _ (by omega), get_tab _ (by omega)]
  simp only [bind, Except.bind]
  rw [mix_lt (by omega), put_tab hk (by simp only [H, hnVar, hnNext])]
  simp only
  rw [get_tab _ hk, get_tab _ hk]
  simp only
  rw [mix_lt (by omega), put_tab hk (by simp only [X, hnObs])]
  rfl

theorem simBody_error {L : ℕ} (hL : 0 < L) (f g : ℕ → ℝ) :
    simBody p rf (tab L z) (tab L f, tab L g) L = .error .indexError := by
  simp only [simBody]
  rw [get_tab _ (by omega), get_tab _ (by omega)]
  simp only [bind, Except.bind]
  rw [put_tab_error (by omega)]

theorem sim_loop {L : ℕ} (m k : ℕ) (hk0 : 0 < k) (hkL : k ≤ L) :
    (List.range' k m).foldlM (simBody p rf (tab L z)) (tab L (mix k (H p h0 z) z), tab L (mix k (X p rf h0 z) z))
      = if k + m ≤ L then .ok (tab L (mix (k + m) (H p h0 z) z), tab L (mix (k + m) (X p rf h0 z) z))
        else .error .indexError := by
  induction m generalizing k with
  | zero => simp [hkL, pure, Except.pure]
  | succ m ih =>
    rw [List.range'_succ, List.foldlM_cons]
    rcases Nat.lt_or_ge k L with h | h
    · rw [simBody_eq p rf h0 z hk0 h]
      simp only [bind, Except.bind]
      rw [ih (k + 1) (by omega) h, show k + 1 + m = k + (m + 1) by omega]
    · obtain rfl : k = L := by omega
      rw [simBody_error p rf z hk0, if_neg (by omega)]
      rfl

/-- The innovations used by `hngarch_sim`: start innovations first. -/
def simZ (n nStart : ℕ) (inno innoStart : Option (List ℝ)) (draw : ℕ → ℕ → List ℝ) : List ℝ :=
  match (if innoStart.isNone ∧ nStart > 0 then some (draw 1 nStart) else innoStart) with
    | some s => s ++ inno.getD (draw 0 n)
    | none => inno.getD (draw 0 n)

/-- `hngarch_sim` once the innovations are fixed. -/
noncomputable def simRun (n nStart : ℕ) (Z : List ℝ) : Except PyErr (List ℝ) := do
  let h ← put! Z 0 ((p.omega + p.alpha) / (1 - p.alpha * p.gamma * p.gamma - p.beta))
  let h0 ← get h 0
  let z0 ← get Z 0
  let x ← put! Z 0 (rf + p.lamb * h0 + √h0 * z0)
  let hx ← (List.range' 1 (nStart + n - 1)).foldlM (simBody p rf Z) (h, x)
  pure (hx.2.drop nStart)

theorem sim_eq_run (n nStart : ℕ) (inno innoStart : Option (List ℝ)) (draw : ℕ → ℕ → List ℝ)
    (hden : 1 - p.alpha * p.gamma * p.gamma - p.beta ≠ 0) :
    sim p rf n nStart inno innoStart draw = simRun p rf n nStart (simZ n nStart inno innoStart draw) := by
  simp only [sim, simRun, simZ, bind, Except.bind, pure, Except.pure]
  rw [if_neg hden]
  generalize (if innoStart.isNone = true ∧ nStart > 0 then some (draw 1 nStart) else innoStart) = o
  cases o <;> rfl

/-- What `hngarch_sim` returns, for every input. -/
theorem simRun_eq (n nStart : ℕ) (Z : List ℝ) :
    let h0 := (p.omega + p.alpha) / (1 - p.alpha * p.gamma * p.gamma - p.beta)
    simRun p rf n nStart Z
      = if 0 < Z.length ∧ nStart + n ≤ Z.length then
          .ok ((tab Z.length (mix (max 1 (nStart + n)) (X p rf h0 (Z.getD · 0)) (Z.getD · 0))).drop nStart)
        else .error .indexError := by
  intro h0
  simp only [simRun, bind, Except.bind, pure, Except.pure]
  by_cases hL : 0 < Z.length
  · set L := Z.length with hLdef
    set z : ℕ → ℝ := (Z.getD · 0) with hz
    have hZ : Z = tab L z := eq_tab Z
    have hp : ∀ (f : ℕ → ℝ) (v : ℝ), v = f 0 → put! (tab L z) 0 v = .ok (tab L (mix 1 f z)) := by
      intro f v hv
      have := put_tab (L := L) (k := 0) (f := f) (g := z) hL hv
      rwa [mix_zero] at this
    clear_value z L
    subst hZ
    rw [hp (H p h0 z) h0 rfl]
    simp only
    rw [get_tab _ hL, get_tab _ hL]
    simp only
    rw [mix_lt (by omega), hp (X p rf h0 z) _ (by simp only [X, hnObs])]
    simp only
    rw [sim_loop p rf h0 z (L := L) (nStart + n - 1) 1 (by omega) hL]
    rcases Nat.eq_zero_or_pos (nStart + n) with h | h
    · rw [if_pos (by omega), if_pos ⟨hL, by omega⟩, h]
      rfl
    · rw [show 1 + (nStart + n - 1) = nStart + n by omega, max_eq_right h]
      by_cases hn : nStart + n ≤ L
      · rw [if_pos hn, if_pos ⟨hL, hn⟩]
      · rw [if_neg hn, if_neg (by omega)]
  · rw [if_neg (by omega), put!, if_neg hL]

/-! ### Filter -/

/-- Variances of the filter. -/
noncomputable abbrev FH (x : ℕ → ℝ) (i : ℕ) : ℝ := hnFilt rf p.lamb p.omega p.alpha p.beta p.gamma h0 x i

/-- Innovations of the filter. -/
noncomputable abbrev FZ (x : ℕ → ℝ) (i : ℕ) : ℝ := hnInno rf p.lamb (FH p rf h0 x i) (x i)

variable (x : ℕ → ℝ)

theorem filterBody_eq {L k : ℕ} (hk0 : 0 < k) (hk : k < L) :
    filterBody p rf (tab L x) (tab L (mix k (FH p rf h0 x) x), tab L (mix k (FZ p rf h0 x) x)) k
      = .ok (tab L (mix (k + 1) (FH p rf h0 x) x), tab L (mix (k + 1) (FZ p rf h0 x) x)) := by
  obtain ⟨m, rfl⟩ : ∃ m, k = m + 1 := ⟨k - 1, by omega⟩
  simp only [filterBody, Nat.add_sub_cancel]
  rw [get_tab _ (by omega), get_tab _ (by omega)]
  simp only [bind, Except.bind]
  rw [mix_lt (by omega), mix_lt (by omega), put_tab hk (by simp only [FH, FZ, hnFilt, hnNext])]
  simp only
  rw [get_tab _ hk, get_tab _ hk]
  simp only
  rw [mix_lt (by omega), put_tab hk (by simp only [FZ, hnInno])]
  rfl

theorem filter_loop {L : ℕ} (m k : ℕ) (hk0 : 0 < k) (hkL : k + m ≤ L) :
    (List.range' k m).foldlM (filterBody p rf (tab L x)) (tab L (mix k (FH p rf h0 x) x), tab L (mix k (FZ p rf h0 x) x))
      = .ok (tab L (mix (k + m) (FH p rf h0 x) x), tab L (mix (k + m) (FZ p rf h0 x) x)) := by
  induction m generalizing k with
  | zero => simp [pure, Except.pure]
  | succ m ih =>
    rw [List.range'_succ, List.foldlM_cons, filterBody_eq p rf h0 x hk0 (by omega)]
    simp only [bind, Except.bind]
    rw [ih (k + 1) (by omega) (by omega), show k + 1 + m = k + (m + 1) by omega]

/-- What the filter returns. -/
theorem filter_eq (l : List ℝ) :
    let h0 := (p.omega + p.alpha) / (1 - p.alpha * p.gamma * p.gamma - p.beta)
    filter p rf l = if 0 < l.length then
        .ok (tab l.length (FH p rf h0 (l.getD · 0)), tab l.length (FZ p rf h0 (l.getD · 0)))
      else .error .indexError := by
  intro h0
  simp only [filter, bind, Except.bind]
  by_cases hL : 0 < l.length
  · set L := l.length with hLdef
    set z : ℕ → ℝ := (l.getD · 0) with hz
    have hZ : l = tab L z := eq_tab l
    have hp : ∀ (f : ℕ → ℝ) (v : ℝ), v = f 0 → put! (tab L z) 0 v = .ok (tab L (mix 1 f z)) := by
      intro f v hv
      have := put_tab (L := L) (k := 0) (f := f) (g := z) hL hv
      rwa [mix_zero] at this
    clear_value z L
    subst hZ
    rw [hp (FH p rf h0 z) h0 rfl]
    simp only
    rw [get_tab _ hL, get_tab _ hL]
    simp only
    rw [mix_lt (by omega), hp (FZ p rf h0 z) _ (by simp only [FZ, hnInno])]
    simp only
    rw [length_tab, filter_loop p rf h0 z (L := L) (L - 1) 1 (by omega) (by omega), if_pos hL,
      show 1 + (L - 1) = L by omega]
    congr 2
    · exact tab_congr fun i hi => mix_lt hi _ _
    · exact tab_congr fun i hi => mix_lt hi _ _
  · rw [if_neg (by omega), put!, if_neg hL]

/-! ### Bounds and inversion -/

theorem le_hnNext {ω α β γ h z : ℝ} (hα : 0 ≤ α) (hβ : 0 ≤ β) (hh : 0 ≤ h) : ω ≤ hnNext ω α β γ h z := by
  have := mul_nonneg hα (sq_nonneg (z - γ * √h))
  have := mul_nonneg hβ hh
  simp only [hnNext]
  linarith

theorem le_hnVar {ω α β γ : ℝ} (hω : 0 ≤ ω) (hα : 0 ≤ α) (hβ : 0 ≤ β) {h0 : ℝ} (hh : ω ≤ h0) (z : ℕ → ℝ) (k : ℕ) :
    ω ≤ hnVar ω α β γ h0 z k := by
  induction k with
  | zero => exact hh
  | succ k ih => exact le_hnNext hα hβ (hω.trans ih)

theorem le_hnFilt {r l ω α β γ : ℝ} (hω : 0 ≤ ω) (hα : 0 ≤ α) (hβ : 0 ≤ β) {h0 : ℝ} (hh : ω ≤ h0) (x : ℕ → ℝ) (k : ℕ) :
    ω ≤ hnFilt r l ω α β γ h0 x k := by
  induction k with
  | zero => exact hh
  | succ k ih => exact le_hnNext hα hβ (hω.trans ih)

theorem hnInno_hnObs {r l h z : ℝ} (hh : 0 < h) : hnInno r l h (hnObs r l h z) = z := by
  have := sqrt_pos.2 hh
  rw [hnInno, hnObs]
  field_simp
  ring

theorem hnObs_hnInno {r l h x : ℝ} (hh : 0 < h) : hnObs r l h (hnInno r l h x) = x := by
  have := sqrt_pos.2 hh
  rw [hnInno, hnObs]
  field_simp
  ring

/-- Filtering the observations gives back variances and innovations. -/
theorem hnFilt_hnObs {r l ω α β γ : ℝ} (hω : 0 < ω) (hα : 0 ≤ α) (hβ : 0 ≤ β) {h0 : ℝ} (hh : ω ≤ h0) (z x : ℕ → ℝ)
    (n : ℕ) (hx : ∀ k < n, x k = hnObs r l (hnVar ω α β γ h0 z k) (z k)) (k : ℕ) (hk : k ≤ n) :
    hnFilt r l ω α β γ h0 x k = hnVar ω α β γ h0 z k := by
  induction k with
  | zero => rfl
  | succ k ih =>
    rw [hnFilt, hnVar, ih (by omega), hx k (by omega), hnInno_hnObs (hω.trans_le (le_hnVar hω.le hα hβ hh z k))]

/-- Simulating with the filtered innovations gives back the observations' variances. -/
theorem hnVar_hnInno {r l ω α β γ h0 : ℝ} (x z : ℕ → ℝ)
    (n : ℕ) (hz : ∀ k < n, z k = hnInno r l (hnFilt r l ω α β γ h0 x k) (x k)) (k : ℕ) (hk : k ≤ n) :
    hnVar ω α β γ h0 z k = hnFilt r l ω α β γ h0 x k := by
  induction k with
  | zero => rfl
  | succ k ih => rw [hnFilt, hnVar, ih (by omega), hz k (by omega)]

/-- Causality. -/
theorem hnVar_congr {ω α β γ h0 : ℝ} {z z' : ℕ → ℝ} (k : ℕ) (h : ∀ i < k, z i = z' i) :
    hnVar ω α β γ h0 z k = hnVar ω α β γ h0 z' k := by
  induction k with
  | zero => rfl
  | succ k ih => rw [hnVar, hnVar, ih fun i hi => h i (by omega), h k (by omega)]

theorem sigmoid_mem (x : ℝ) : 0 < sigmoid x ∧ sigmoid x < 1 := by
  have := exp_pos (-x)
  rw [sigmoid]
  exact ⟨by positivity, by rw [div_lt_one (by linarith)]; linarith⟩

theorem sigmoid_logit {x : ℝ} (h0 : 0 < x) (h1 : x < 1) : sigmoid (logit x) = x := by
  have : 0 < (1 - x) / x := div_pos (by linarith) h0
  rw [sigmoid, logit, neg_neg, exp_log this]
  field_simp
  ring

end Verif.HN
