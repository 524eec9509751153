import Verif.Model.GarchFl
import Verif.Lemmas.Fl
import Verif.Lemmas.Garch

/-!
The loops of `Model/GarchFl` as tables of sequences: `nan` from the start, or numbers throughout.
-/
namespace Verif.GarchFl
open Fl Verif.Spec

/-- The list `f 0, ..., f (L-1)`. -/
def tab (L : ℕ) (f : ℕ → Fl) : List Fl := (List.range L).map f

/-- `f` below `k`, `g` from `k` on. -/
def mix (k : ℕ) (f g : ℕ → Fl) (i : ℕ) : Fl := if i < k then f i else g i

@[simp] theorem length_tab (L : ℕ) (f : ℕ → Fl) : (tab L f).length = L := by simp [tab]

theorem getElem?_tab (L : ℕ) (f : ℕ → Fl) (i : ℕ) : (tab L f)[i]? = if i < L then some (f i) else none := by
  rw [tab, List.getElem?_map]
  by_cases h : i < L
  · rw [List.getElem?_range h]; simp [h]
  · rw [List.getElem?_eq_none (by simpa using h)]; simp [h]

theorem map_num_tab (l : List ℝ) : l.map num = tab l.length fun i => num (l.getD i 0) := by
  apply List.ext_getElem?
  intro i
  rw [getElem?_tab, List.getElem?_map]
  split
  · rename_i h
    rw [List.getElem?_eq_getElem h]
    simp [List.getD, h]
  · rename_i h
    rw [List.getElem?_eq_none (by omega)]; rfl

theorem tab_congr {L : ℕ} {f g : ℕ → Fl} (h : ∀ i < L, f i = g i) : tab L f = tab L g :=
  List.map_congr_left fun i hi => h i (List.mem_range.1 hi)

theorem tab_num (L : ℕ) (f : ℕ → ℝ) : tab L (fun i => num (f i)) = (HN.tab L f).map num := by
  rw [tab, HN.tab, List.map_map]; rfl

theorem get_tab {L i : ℕ} (f : ℕ → Fl) (h : i < L) : get (tab L f) i = .ok (f i) := by
  rw [get, getElem?_tab, if_pos h]

theorem put_tab {L k : ℕ} {f g : ℕ → Fl} {v : Fl} (h : k < L) (hv : v = f k) :
    put! (tab L (mix k f g)) k v = .ok (tab L (mix (k + 1) f g)) := by
  rw [put!, length_tab, if_pos h]
  congr 1
  apply List.ext_getElem?
  intro i
  rw [List.getElem?_set, getElem?_tab, length_tab, getElem?_tab]
  by_cases hik : k = i
  · subst hik
    simp [h, mix, hv]
  · rw [if_neg hik]
    have : mix k f g i = mix (k + 1) f g i := by
      have hh : i < k ↔ i < k + 1 := by omega
      simp only [mix, hh]
    rw [this]

theorem put_tab_zero {L : ℕ} (hL : 0 < L) {f g : ℕ → Fl} {v : Fl} (hv : v = f 0) :
    put! (tab L g) 0 v = .ok (tab L (mix 1 f g)) := by
  have := put_tab (L := L) (k := 0) (f := f) (g := g) hL hv
  rwa [show mix 0 f g = g by funext i; simp [mix]] at this

theorem put_tab_error {L k : ℕ} {f : ℕ → Fl} {v : Fl} (h : ¬ k < L) : put! (tab L f) k v = .error .indexError := by
  rw [put!, length_tab, if_neg h]

theorem mix_lt {k i : ℕ} (h : i < k) (f g : ℕ → Fl) : mix k f g i = f i := if_pos h

variable (p : Par) (rf : Fl)

/-- The next variance. -/
noncomputable def next (h z : Fl) : Fl := p.omega + p.alpha * (z - p.gamma * sqrt h) ^ 2 + p.beta * h

/-- The first variance. -/
noncomputable def first : Fl := (p.omega + p.alpha) / (1 - p.alpha * p.gamma * p.gamma - p.beta)

/-- Variance and innovation of the filter. -/
noncomputable def hz (x : ℕ → Fl) : ℕ → Fl × Fl
  | 0 => (first p, (x 0 - rf - p.lamb * first p) / sqrt (first p))
  | k + 1 => (next p (hz x k).1 (hz x k).2,
      (x (k + 1) - rf - p.lamb * next p (hz x k).1 (hz x k).2) / sqrt (next p (hz x k).1 (hz x k).2))

theorem filterBody_eq (x : ℕ → Fl) {L k : ℕ} (hk0 : 0 < k) (hk : k < L) :
    filterBody p rf (tab L x) (tab L (mix k (fun i => (hz p rf x i).1) x), tab L (mix k (fun i => (hz p rf x i).2) x)) k
      = .ok (tab L (mix (k + 1) (fun i => (hz p rf x i).1) x), tab L (mix (k + 1) (fun i => (hz p rf x i).2) x)) := by
  obtain ⟨m, rfl⟩ : ∃ m, k = m + 1 := ⟨k - 1, by omega⟩
  simp only [filterBody, Nat.add_sub_cancel]
  rw [get_tab _ (by omega), get_tab _ (by omega)]
  simp only [bind, Except.bind]
  rw [mix_lt (by omega), mix_lt (by omega), put_tab hk (by simp only [hz, next])]
  simp only
  rw [get_tab _ hk, get_tab _ hk]
  simp only
  rw [mix_lt (by omega), put_tab hk (by simp only [hz])]
  rfl

theorem filter_loop (x : ℕ → Fl) {L : ℕ} (m k : ℕ) (hk0 : 0 < k) (hkL : k + m ≤ L) :
    (List.range' k m).foldlM (filterBody p rf (tab L x))
        (tab L (mix k (fun i => (hz p rf x i).1) x), tab L (mix k (fun i => (hz p rf x i).2) x))
      = .ok (tab L (mix (k + m) (fun i => (hz p rf x i).1) x), tab L (mix (k + m) (fun i => (hz p rf x i).2) x)) := by
  induction m generalizing k with
  | zero => simp [pure, Except.pure]
  | succ m ih =>
    rw [List.range'_succ, List.foldlM_cons, filterBody_eq p rf x hk0 (by omega)]
    simp only [bind, Except.bind]
    rw [ih (k + 1) (by omega) (by omega), show k + 1 + m = k + (m + 1) by omega]

theorem filter_tab (x : ℕ → Fl) {L : ℕ} (hL : 0 < L) :
    filter p rf (tab L x) = .ok (tab L (fun i => (hz p rf x i).1), tab L (fun i => (hz p rf x i).2)) := by
  simp only [filter, bind, Except.bind]
  rw [put_tab_zero hL (f := fun i => (hz p rf x i).1) (by simp only [hz, first])]
  simp only
  rw [get_tab _ hL, get_tab _ hL]
  simp only
  rw [mix_lt (by omega), put_tab_zero hL (f := fun i => (hz p rf x i).2) (by simp only [hz])]
  simp only
  rw [length_tab, filter_loop p rf x (L - 1) 1 (by omega) (by omega), show 1 + (L - 1) = L by omega]
  congr 2
  · exact tab_congr fun i hi => mix_lt hi _ _
  · exact tab_congr fun i hi => mix_lt hi _ _

variable {p rf}

theorem next_nan_right (h : Fl) : next p h nan = nan := by
  rw [next, nan_sub, show (nan : Fl) ^ 2 = nan from nan_pow 1, mul_nan, add_nan, nan_add]

theorem hz_nan {x : ℕ → Fl} (h0 : (hz p rf x 0).2 = nan) (k : ℕ) :
    (hz p rf x k).2 = nan ∧ (hz p rf x (k + 1)).1 = nan := by
  induction k with
  | zero => exact ⟨h0, by simp only [hz] at h0 ⊢; rw [h0, next_nan_right]⟩
  | succ k ih =>
    have e1 : (hz p rf x (k + 1)).2 = nan := by
      have h := ih.2
      simp only [hz] at h ⊢
      rw [h, mul_nan, sub_nan, nan_div]
    refine ⟨e1, ?_⟩
    show next p (hz p rf x (k + 1)).1 (hz p rf x (k + 1)).2 = nan
    rw [e1, next_nan_right]

theorem sum_nan {l : List Fl} (h : nan ∈ l) : sum l = nan := by
  induction l with
  | nil => simp at h
  | cons a l ih =>
    rw [sum, List.foldr_cons]
    rcases List.mem_cons.1 h with h | h
    · rw [← h, nan_add]
    · have := ih h
      rw [sum] at this
      rw [this, add_nan]

theorem sum_num (l : List ℝ) : sum (l.map num) = num l.sum := by
  induction l with
  | nil => simp [sum, zero_eq]
  | cons a l ih => rw [List.map_cons, sum, List.foldr_cons, ← sum, ih, num_add, List.sum_cons]

theorem pdf_nan : pdf nan = nan := by
  rw [pdf, show (nan : Fl) ^ 2 = nan from nan_pow 1, neg_nan, nan_div, exp_nan, nan_div]

theorem pdf_num (z : ℝ) : pdf (num z) = num (HN.pdf z) := by
  rw [pdf, num_pow, num_neg, two_eq, num_div _ two_ne_zero, num_exp,
    num_div _ (Real.sqrt_pos.2 (by positivity)).ne', HN.pdf]

/-- The likelihood with an innovation that is `nan` at the start. -/
theorem llh_nan {x0 : Par} {symmetric : Bool} {rfr : ℝ} {x : List ℝ} (hx : x ≠ [])
    (h0 : (hz (filterPar x0 symmetric) (num rfr) (fun i => num (x.getD i 0)) 0).2 = nan) :
    llh x0 symmetric rfr x = .ok (nan, List.replicate x.length nan,
      first (filterPar x0 symmetric) :: List.replicate (x.length - 1) nan) := by
  have hL : 0 < x.length := List.length_pos_iff.2 hx
  simp only [llh, bind, Except.bind, pure, Except.pure]
  rw [map_num_tab, filter_tab _ _ _ hL]
  simp only
  set q := filterPar x0 symmetric
  set y : ℕ → Fl := fun i => num (x.getD i 0)
  have hn := hz_nan h0
  have ez : tab x.length (fun i => (hz q (num rfr) y i).2) = List.replicate x.length nan := by
    rw [tab_congr (g := fun _ => nan) fun i _ => (hn i).1, tab]
    rw [List.map_const', List.length_range]
  have eh : tab x.length (fun i => (hz q (num rfr) y i).1) = first q :: List.replicate (x.length - 1) nan := by
    obtain ⟨m, hm⟩ : ∃ m, x.length = m + 1 := ⟨x.length - 1, by omega⟩
    rw [hm, tab, List.range_succ_eq_map, List.map_cons, List.map_map]
    congr 1
    refine (List.map_congr_left (g := fun _ => nan) fun i _ => (hn i).2).trans ?_
    rw [List.map_const', List.length_range]
    rfl
  rw [ez, eh]
  congr 2
  rw [sum_nan, neg_nan]
  obtain ⟨m, hm⟩ : ∃ m, x.length = m + 1 := ⟨x.length - 1, by omega⟩
  rw [hm, List.replicate_succ, List.zip_cons_cons, List.map_cons, pdf_nan, nan_div, log_nan]
  exact List.mem_cons_self

/-! ### Numbers -/

theorem next_num {p : HN.Par} {h z : ℝ} (hh : 0 ≤ h) :
    next (ofReal p) (num h) (num z) = num (hnNext p.omega p.alpha p.beta p.gamma h z) := by
  simp only [next, ofReal]
  rw [num_sqrt hh, num_mul, num_sub, num_pow, num_mul, num_add, num_mul, num_add, hnNext]

theorem first_num {p : HN.Par} (hd : 1 - p.alpha * p.gamma * p.gamma - p.beta ≠ 0) :
    first (ofReal p) = num ((p.omega + p.alpha) / (1 - p.alpha * p.gamma * p.gamma - p.beta)) := by
  simp only [first, ofReal]
  rw [num_add, num_mul, num_mul, one_eq, num_sub, num_sub, num_div _ hd]

theorem inno_num {h : ℝ} (hh : 0 < h) (x rf l : ℝ) :
    (num x - num rf - num l * num h) / sqrt (num h) = num (hnInno rf l h x) := by
  rw [num_sqrt hh.le, num_mul, num_sub, num_sub, num_div _ (Real.sqrt_pos.2 hh).ne', hnInno]

theorem hz_num {p : HN.Par} (hω : 0 < p.omega) (hα : 0 ≤ p.alpha) (hβ : 0 ≤ p.beta)
    (hs : p.beta + p.alpha * p.gamma ^ 2 < 1) (rf : ℝ) (x : ℕ → ℝ) (k : ℕ) :
    let h0 := (p.omega + p.alpha) / (1 - p.alpha * p.gamma * p.gamma - p.beta)
    hz (ofReal p) (num rf) (fun i => num (x i)) k = (num (HN.FH p rf h0 x k), num (HN.FZ p rf h0 x k)) := by
  intro h0
  have hd : 0 < 1 - p.alpha * p.gamma * p.gamma - p.beta := by nlinarith
  have hd1 : 1 - p.alpha * p.gamma * p.gamma - p.beta ≤ 1 := by nlinarith [mul_nonneg hα (sq_nonneg p.gamma)]
  have hh : p.omega ≤ h0 := by
    rw [le_div_iff₀ hd]; nlinarith
  have hpos : ∀ k, 0 < HN.FH p rf h0 x k := fun k => hω.trans_le (HN.le_hnFilt hω.le hα hβ hh x k)
  induction k with
  | zero =>
    simp only [hz]
    rw [first_num hd.ne']
    refine Prod.ext rfl ?_
    exact inno_num (hpos 0) _ _ _
  | succ k ih =>
    simp only [hz]
    rw [ih]
    simp only
    rw [next_num (hpos k).le]
    refine Prod.ext rfl ?_
    exact inno_num (hpos (k + 1)) _ _ _

theorem sigmoid_num (x : ℝ) : sigmoid (num x) = num (HN.sigmoid x) := by
  rw [sigmoid, num_neg, num_exp, one_eq, num_add, num_div _ (by positivity), HN.sigmoid]

theorem filterPar_num (x0 : HN.Par) (symmetric : Bool) :
    filterPar (ofReal x0) symmetric = ofReal (HN.filterPar x0 symmetric) := by
  cases symmetric <;> simp [filterPar, ofReal, HN.filterPar, sigmoid_num, HN.invert]

/-- Filter with numbers: the variances and innovations of the model on reals. -/
theorem filter_num {p : HN.Par} (hω : 0 < p.omega) (hα : 0 ≤ p.alpha) (hβ : 0 ≤ p.beta)
    (hs : p.beta + p.alpha * p.gamma ^ 2 < 1) (rf : ℝ) {x : List ℝ} (hx : x ≠ []) :
    ∃ h z : List ℝ, HN.filter p rf x = .ok (h, z) ∧ h.length = x.length ∧ z.length = x.length ∧ (∀ v ∈ h, 0 < v) ∧
      filter (ofReal p) (num rf) (x.map num) = .ok (h.map num, z.map num) := by
  have hL : 0 < x.length := List.length_pos_iff.2 hx
  have hd : 0 < 1 - p.alpha * p.gamma * p.gamma - p.beta := by nlinarith
  have hd1 : 1 - p.alpha * p.gamma * p.gamma - p.beta ≤ 1 := by nlinarith [mul_nonneg hα (sq_nonneg p.gamma)]
  set h0 := (p.omega + p.alpha) / (1 - p.alpha * p.gamma * p.gamma - p.beta) with hh0
  have hh : p.omega ≤ h0 := by
    rw [hh0, le_div_iff₀ hd]; nlinarith
  have e := HN.filter_eq p rf x
  simp only [if_pos hL, ← hh0] at e
  refine ⟨_, _, e, by simp, by simp, ?_, ?_⟩
  · intro v hv
    simp only [HN.tab, List.mem_map] at hv
    obtain ⟨k, -, rfl⟩ := hv
    exact hω.trans_le (HN.le_hnFilt hω.le hα hβ hh _ k)
  · rw [map_num_tab, filter_tab _ _ _ hL, ← tab_num, ← tab_num]
    have := hz_num hω hα hβ hs rf (x.getD · 0)
    simp only [this]
    rfl

theorem llh_sum (h z : List ℝ) (hpos : ∀ v ∈ h, 0 < v) :
    (((z.map num).zip (h.map num)).map fun zh => log (pdf zh.1 / sqrt zh.2))
      = ((z.zip h).map fun zh => Real.log (HN.pdf zh.1 / √zh.2)).map num := by
  rw [List.zip_map, List.map_map, List.map_map]
  apply List.map_congr_left
  rintro ⟨a, b⟩ hab
  have hb : 0 < b := hpos b (List.of_mem_zip hab).2
  have hp : 0 < HN.pdf a := div_pos (Real.exp_pos _) (Real.sqrt_pos.2 (by positivity))
  simp only [Function.comp, Prod.map]
  rw [pdf_num, num_sqrt hb.le, num_div _ (Real.sqrt_pos.2 hb).ne', num_log (div_pos hp (Real.sqrt_pos.2 hb))]

/-! ### Simulation -/

/-- Variance and point of the simulation. -/
noncomputable def hx (p : Par) (rf : Fl) (Z : ℕ → Fl) : ℕ → Fl × Fl
  | 0 => (first p, rf + p.lamb * first p + sqrt (first p) * Z 0)
  | k + 1 => (next p (hx p rf Z k).1 (Z k),
      rf + p.lamb * next p (hx p rf Z k).1 (Z k) + sqrt (next p (hx p rf Z k).1 (Z k)) * Z (k + 1))

theorem simBody_eq (p : Par) (rf : Fl) (Z : ℕ → Fl) {L k : ℕ} (hk0 : 0 < k) (hk : k < L) :
    simBody p rf (tab L Z) (tab L (mix k (fun i => (hx p rf Z i).1) Z), tab L (mix k (fun i => (hx p rf Z i).2) Z)) k
      = .ok (tab L (mix (k + 1) (fun i => (hx p rf Z i).1) Z), tab L (mix (k + 1) (fun i => (hx p rf Z i).2) Z)) := by
  obtain ⟨m, rfl⟩ : ∃ m, k = m + 1 := ⟨k - 1, by omega⟩
  simp only [simBody, Nat.add_sub_cancel]
  rw [get_tab _ (by omega), get_tab _ (by omega)]
  simp only [bind, Except.bind]
  rw [mix_lt (by omega), put_tab hk (by simp only [hx, next])]
  simp only
  rw [get_tab _ hk, get_tab _ hk]
  simp only
  rw [mix_lt (by omega), put_tab hk (by simp only [hx])]
  rfl

theorem sim_loop (p : Par) (rf : Fl) (Z : ℕ → Fl) {L : ℕ} (m k : ℕ) (hk0 : 0 < k) (hkL : k + m ≤ L) :
    (List.range' k m).foldlM (simBody p rf (tab L Z))
        (tab L (mix k (fun i => (hx p rf Z i).1) Z), tab L (mix k (fun i => (hx p rf Z i).2) Z))
      = .ok (tab L (mix (k + m) (fun i => (hx p rf Z i).1) Z), tab L (mix (k + m) (fun i => (hx p rf Z i).2) Z)) := by
  induction m generalizing k with
  | zero => simp [pure, Except.pure]
  | succ m ih =>
    rw [List.range'_succ, List.foldlM_cons, simBody_eq p rf Z hk0 (by omega)]
    simp only [bind, Except.bind]
    rw [ih (k + 1) (by omega) (by omega), show k + 1 + m = k + (m + 1) by omega]

theorem sim_tab {p : HN.Par} (hd : 1 - p.alpha * p.gamma * p.gamma - p.beta ≠ 0) (rf : ℝ) {n nStart : ℕ} {Z : List ℝ}
    (hZ : Z.length = nStart + n) (hn : 0 < nStart + n) :
    sim p rf n nStart Z = .ok ((tab (nStart + n)
      fun i => (hx (ofReal p) (num rf) (fun i => num (Z.getD i 0)) i).2).drop nStart) := by
  simp only [sim, bind, Except.bind, pure, Except.pure]
  rw [if_neg hd, map_num_tab, hZ]
  set y : ℕ → Fl := fun i => num (Z.getD i 0)
  rw [put_tab_zero hn (f := fun i => (hx (ofReal p) (num rf) y i).1) (by simp only [hx, first])]
  simp only
  rw [get_tab _ hn, get_tab _ hn]
  simp only
  rw [mix_lt (by omega), put_tab_zero hn (f := fun i => (hx (ofReal p) (num rf) y i).2) (by simp only [hx])]
  simp only
  rw [sim_loop (ofReal p) (num rf) y (nStart + n - 1) 1 (by omega) (by omega), show 1 + (nStart + n - 1) = nStart + n by omega]
  simp only
  congr 2
  exact tab_congr fun i hi => mix_lt hi _ _

theorem hx_num {p : HN.Par} (hω : 0 < p.omega) (hα : 0 ≤ p.alpha) (hβ : 0 ≤ p.beta)
    (hs : p.beta + p.alpha * p.gamma ^ 2 < 1) (rf : ℝ) (Z : ℕ → ℝ) (k : ℕ) :
    let h0 := (p.omega + p.alpha) / (1 - p.alpha * p.gamma * p.gamma - p.beta)
    hx (ofReal p) (num rf) (fun i => num (Z i)) k = (num (HN.H p h0 Z k), num (HN.X p rf h0 Z k)) := by
  intro h0
  have hd : 0 < 1 - p.alpha * p.gamma * p.gamma - p.beta := by nlinarith
  have hd1 : 1 - p.alpha * p.gamma * p.gamma - p.beta ≤ 1 := by nlinarith [mul_nonneg hα (sq_nonneg p.gamma)]
  have hh : p.omega ≤ h0 := by
    rw [le_div_iff₀ hd]; nlinarith
  have hpos : ∀ k, 0 < HN.H p h0 Z k := fun k => hω.trans_le (HN.le_hnVar hω.le hα hβ hh Z k)
  have obs : ∀ {h : ℝ}, 0 < h → ∀ z, num rf + (ofReal p).lamb * num h + sqrt (num h) * num z = num (hnObs rf p.lamb h z) :=
    fun {h} h1 z => by
      simp only [ofReal]
      rw [num_sqrt h1.le, num_mul, num_mul, num_add, num_add, hnObs]
  induction k with
  | zero =>
    simp only [hx]
    rw [first_num hd.ne']
    exact Prod.ext rfl (obs (hpos 0) _)
  | succ k ih =>
    simp only [hx]
    rw [ih]
    simp only
    rw [next_num (hpos k).le]
    exact Prod.ext rfl (obs (hpos (k + 1)) _)

theorem next_sqrt_nan {p : Par} {h : Fl} (hs : sqrt h = nan) (z : Fl) : next p h z = nan := by
  rw [next, hs, mul_nan, sub_nan, show (nan : Fl) ^ 2 = nan from nan_pow 1, mul_nan, add_nan, nan_add]

theorem hx_nan {p : Par} {rf : Fl} {Z : ℕ → Fl} (h0 : sqrt (first p) = nan) (k : ℕ) :
    sqrt (hx p rf Z k).1 = nan ∧ (hx p rf Z k).2 = nan := by
  induction k with
  | zero => exact ⟨h0, by simp only [hx]; rw [h0, nan_mul, add_nan]⟩
  | succ k ih =>
    simp only [hx]
    rw [next_sqrt_nan ih.1]
    exact ⟨sqrt_nan, by rw [sqrt_nan, nan_mul, add_nan]⟩

end Verif.GarchFl
