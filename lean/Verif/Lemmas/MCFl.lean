import Verif.Model.MCFl
import Verif.Lemmas.Fl
import Verif.Lemmas.MC

/-! Sums, means and payoffs of the Monte Carlo model on numbers that include `nan` and the infinities. -/
namespace Verif.MCFl
open Fl (num pinf ninf nan)
open MC (Opt Kind)

/-! ### Sums and means -/

theorem sum_cons (x : Fl) (l : List Fl) : sum (x :: l) = x + sum l := rfl

theorem sum_num (l : List ℝ) : sum (l.map num) = num l.sum := by
  induction l with
  | nil => rfl
  | cons x l ih => rw [List.map_cons, sum_cons, ih, List.sum_cons]; rfl

theorem sum_nan {l : List Fl} (h : nan ∈ l) : sum l = nan := by
  induction l with
  | nil => simp at h
  | cons x l ih =>
    rw [sum_cons]
    rcases List.mem_cons.1 h with rfl | h
    · exact Fl.nan_add _
    · rw [ih h, Fl.add_nan]

theorem mean_nil : mean [] = nan := by
  show num 0 * (if ((0 : ℕ) : ℝ) = 0 then pinf else _) = nan
  rw [if_pos (by simp)]
  show Fl.signed 0 = nan
  simp [Fl.signed]

theorem mean_nan {l : List Fl} (h : nan ∈ l) : mean l = nan := by
  rw [mean, sum_nan h, Fl.nan_div]

theorem mean_num {l : List ℝ} (h : l ≠ []) : mean (l.map num) = num (MC.mean l) := by
  have hl : (l.length : ℝ) ≠ 0 := by simpa using h
  rw [mean, sum_num, List.length_map, Fl.num_div _ hl]
  rfl

/-- A list of payoffs: numbers, `+inf` or `nan`. -/
theorem sum_class {l : List Fl} (hn : ninf ∉ l) (ha : nan ∉ l) :
    (pinf ∈ l → sum l = pinf) ∧ (pinf ∉ l → ∃ z : List ℝ, l = z.map num) := by
  induction l with
  | nil => exact ⟨by simp, fun _ => ⟨[], rfl⟩⟩
  | cons x l ih =>
    simp only [List.mem_cons, not_or] at hn ha ⊢
    obtain ⟨i1, i2⟩ := ih hn.2 ha.2
    constructor
    · intro h
      rw [sum_cons]
      by_cases hp : pinf ∈ l
      · rw [i1 hp]
        cases x with
        | num x => rfl
        | pinf => rfl
        | ninf => exact absurd rfl hn.1
        | nan => exact absurd rfl ha.1
      · obtain ⟨z, rfl⟩ := i2 hp
        rw [sum_num, ← h.resolve_right hp]
        rfl
    · rintro ⟨h1, h2⟩
      obtain ⟨z, rfl⟩ := i2 h2
      cases x with
      | num x => exact ⟨x :: z, rfl⟩
      | pinf => exact absurd rfl h1
      | ninf => exact absurd rfl hn.1
      | nan => exact absurd rfl ha.1

theorem mean_pinf {l : List Fl} (hn : ninf ∉ l) (ha : nan ∉ l) (hp : pinf ∈ l) : mean l = pinf := by
  have hl : (0 : ℝ) < l.length := by exact_mod_cast List.length_pos_of_mem hp
  rw [mean, (sum_class hn ha).1 hp]
  show pinf * (if (l.length : ℝ) = 0 then pinf else num _) = pinf
  rw [if_neg hl.ne']
  show Fl.signed _ = pinf
  exact if_pos (inv_pos.2 hl)

/-! ### Payoffs -/

/-- The discounted positive part. -/
theorem pay_cases (d : ℝ) (y : Fl) :
    (∃ x, 0 ≤ x ∧ num (Real.exp d) * Fl.maximum0 y = num x) ∨ (y = pinf ∧ num (Real.exp d) * Fl.maximum0 y = pinf) ∨
      (y = nan ∧ num (Real.exp d) * Fl.maximum0 y = nan) := by
  cases y with
  | num x => exact .inl ⟨Real.exp d * max 0 x, by positivity, rfl⟩
  | pinf => exact .inr (.inl ⟨rfl, if_pos (Real.exp_pos d)⟩)
  | ninf => exact .inl ⟨Real.exp d * 0, by simp, rfl⟩
  | nan => exact .inr (.inr ⟨rfl, rfl⟩)

theorem payoff_ninf (k : Kind) (o : Opt) (call : Bool) (eps : Rows) : ninf ∉ payoff k o call eps := by
  intro h
  obtain ⟨path, -, e⟩ := List.mem_map.1 h
  rcases pay_cases (-o.r * o.t) (if call then price k o path - num o.K else num o.K - price k o path) with
    ⟨x, -, hx⟩ | ⟨-, hx⟩ | ⟨-, hx⟩ <;> rw [hx] at e <;> cases e

/-! ### Inside the domain -/

/-- Finite innovations. -/
def embed (z : MC.Rows) : Rows := z.map fun row => row.map num

theorem embed_flatten (z : MC.Rows) : (embed z).flatten = z.flatten.map num := by
  unfold embed
  rw [List.map_flatten]

theorem antithetic_num (z : MC.Rows) : antithetic (embed z) = embed (MC.antithetic z) := by
  simp only [antithetic, MC.antithetic, embed, List.map_append, List.map_map]
  congr 2
  funext row
  simp only [Function.comp, List.map_map]
  rfl

theorem std_num {l : List ℝ} (h : l ≠ []) : std (l.map num) = num (MC.std l) := by
  unfold std MC.std
  rw [mean_num h, List.map_map]
  have e : ((fun x => (x - num (MC.mean l)) ^ 2) ∘ num) = num ∘ fun x => (x - MC.mean l) ^ 2 := by
    funext x
    show (num x - num (MC.mean l)) ^ 2 = _
    rw [Fl.num_sub, Fl.num_pow]; rfl
  rw [e, ← List.map_map, mean_num (by simpa using h), Fl.num_sqrt]
  unfold MC.mean
  refine div_nonneg (List.sum_nonneg ?_) (Nat.cast_nonneg _)
  intro x hx
  obtain ⟨y, -, rfl⟩ := List.mem_map.1 hx
  positivity

theorem standardize_num {z : MC.Rows} (h : z.flatten ≠ []) (hs : MC.std z.flatten ≠ 0) :
    standardize (embed z) = embed (MC.standardize z) := by
  unfold standardize
  rw [embed_flatten, std_num h, mean_num h]
  simp only [embed, MC.standardize, List.map_map]
  refine List.map_congr_left fun row _ => ?_
  simp only [Function.comp, List.map_map]
  refine List.map_congr_left fun x _ => ?_
  simp only [Function.comp]
  rw [Fl.num_sub, Fl.num_div _ hs]

/-- The innovations before standardisation. -/
noncomputable def drawn (anti : Bool) (z : MC.Rows) : MC.Rows := if anti then MC.antithetic z else z

theorem drawn_num (anti : Bool) (z : MC.Rows) :
    (if anti then antithetic (embed z) else embed z) = embed (drawn anti z) := by
  cases anti
  · rfl
  · exact antithetic_num z

theorem prep_num (anti stand : Bool) {z : MC.Rows}
    (hs : stand = true → (drawn anti z).flatten ≠ [] ∧ MC.std (drawn anti z).flatten ≠ 0) :
    prep anti stand (embed z) = embed (MC.prep anti stand z) := by
  unfold prep MC.prep
  simp only [drawn_num]
  cases stand
  · rfl
  · simp only [if_true]
    exact standardize_num (hs rfl).1 (hs rfl).2

theorem wiener_num {o : Opt} (hdt : 0 ≤ o.dt) (z : MC.Rows) : wiener o (embed z) = embed (MC.wiener o z) := by
  simp only [wiener, embed, MC.wiener, List.map_map]
  refine List.map_congr_left fun row _ => ?_
  simp only [Function.comp, List.map_map]
  refine List.map_congr_left fun x _ => ?_
  simp only [Function.comp]
  rw [Fl.num_sqrt hdt]
  rfl

theorem cumsum_num (a : ℝ) (l : List ℝ) : cumsum (num a) (l.map num) = (MC.cumsum a l).map num := by
  induction l generalizing a with
  | nil => rfl
  | cons x l ih =>
    simp only [List.map_cons, cumsum, MC.cumsum]
    rw [Fl.num_add, ih]

theorem price_num (k : Kind) (o : Opt) {l : List ℝ} (h : l ≠ []) : price k o (l.map num) = num (k.price o l) := by
  cases k
  · show num o.S * Fl.exp (sum _) = _
    rw [sum_num]; rfl
  · show mean _ = _
    rw [show num 0 = num 0 from rfl, cumsum_num, List.map_map]
    have e : ((fun x => num o.S * Fl.exp x) ∘ num) = num ∘ fun x => o.S * Real.exp x := rfl
    have hc : MC.cumsum 0 l ≠ [] := by
      cases l with
      | nil => exact absurd rfl h
      | cons x l => simp [MC.cumsum]
    rw [e, ← List.map_map, mean_num (by simpa using hc)]
    rfl

theorem payoff_num (k : Kind) {o : Opt} (call : Bool) (hdt : 0 ≤ o.dt) {z : MC.Rows} (h : ∀ row ∈ z, row ≠ []) :
    payoff k o call (embed z) = (MC.payoff k o call z).map num := by
  unfold payoff MC.payoff
  rw [wiener_num hdt]
  simp only [embed, List.map_map]
  refine List.map_congr_left fun row hrow => ?_
  have hr : row ≠ [] := by
    obtain ⟨r, hr, rfl⟩ := List.mem_map.1 hrow
    simpa using h r hr
  simp only [Function.comp]
  rw [price_num k o hr]
  cases call
  · simp only [Bool.false_eq_true, if_false]
    rw [Fl.num_sub, max_comm]; rfl
  · simp only [if_true]
    rw [Fl.num_sub, max_comm]; rfl

theorem standardize_rows {z : MC.Rows} (h : ∀ row ∈ z, row ≠ []) : ∀ row ∈ MC.standardize z, row ≠ [] := by
  intro row hrow
  obtain ⟨r, hr, rfl⟩ := List.mem_map.1 hrow
  simpa using h r hr

theorem drawn_rows {anti : Bool} {z : MC.Rows} (h : ∀ row ∈ z, row ≠ []) : ∀ row ∈ drawn anti z, row ≠ [] := by
  cases anti
  · exact h
  · intro row hrow
    rcases List.mem_append.1 hrow with hr | hr
    · exact h row hr
    · obtain ⟨r, hr', rfl⟩ := List.mem_map.1 hr
      simpa using h r hr'

theorem prep_eq (anti stand : Bool) (z : MC.Rows) :
    MC.prep anti stand z = if stand then MC.standardize (drawn anti z) else drawn anti z := rfl

theorem prep_rows {anti stand : Bool} {z : MC.Rows} (h : ∀ row ∈ z, row ≠ []) :
    ∀ row ∈ MC.prep anti stand z, row ≠ [] := by
  rw [prep_eq]
  cases stand
  · exact drawn_rows h
  · exact standardize_rows (drawn_rows h)

theorem drawn_ne {anti : Bool} {z : MC.Rows} (h : z ≠ []) : drawn anti z ≠ [] := by
  cases anti
  · exact h
  · simp [drawn, MC.antithetic, h]

theorem flatten_ne {z : MC.Rows} (h : z ≠ []) (hr : ∀ row ∈ z, row ≠ []) : z.flatten ≠ [] := by
  cases z with
  | nil => exact absurd rfl h
  | cons r z => simp [hr r (by simp)]

/-! ### Averages that are not numbers -/

/-- A loop all of whose averages are `nan` is not reported. -/
theorem all_nan (k : Kind) (o : Opt) (call : Bool) (sample : ℕ → Rows)
    (h : ∀ i, mean (payoff k o call (prep o.anti o.stand (sample i))) = nan) :
    run k o call sample = .ok (List.replicate o.loops nan) := by
  unfold run
  rw [MC.sim_ok _ _ _ _ _ _ _ fun i _ => by rw [h i]; rfl]
  simp only [h]
  simp

theorem price_nan (k : Kind) (o : Opt) {l : List Fl} (h : nan ∈ l) : price k o l = nan := by
  cases k
  · show num o.S * Fl.exp (sum _) = _
    rw [sum_nan h]; rfl
  · refine mean_nan ?_
    have : ∀ (l : List Fl) (a : Fl), nan ∈ l → nan ∈ cumsum a l := by
      intro l
      induction l with
      | nil => intro a h; simp at h
      | cons x l ih =>
        intro a h
        rcases List.mem_cons.1 h with rfl | h
        · rw [cumsum, Fl.add_nan]; simp
        · rw [cumsum]
          exact List.mem_cons_of_mem _ (ih _ h)
    exact List.mem_map.2 ⟨nan, this l _ h, rfl⟩

/-- One path with a `nan` makes the average of the loop `nan`. -/
theorem loop_nan (k : Kind) (o : Opt) (call : Bool) {eps : Rows} {row : List Fl} (hrow : row ∈ wiener o eps)
    (h : nan ∈ row) : mean (payoff k o call eps) = nan := by
  refine mean_nan (List.mem_map.2 ⟨row, hrow, ?_⟩)
  rw [price_nan k o h]
  cases call <;> rfl

theorem wiener_mem (o : Opt) {eps : Rows} {row : List Fl} (hrow : row ∈ eps) {x : Fl} (hx : x ∈ row)
    (h : num ((o.b - o.sigma ^ 2 / 2) * o.dt) + num o.sigma * Fl.sqrt (num o.dt) * x = nan) :
    ∃ r ∈ wiener o eps, nan ∈ r :=
  ⟨_, List.mem_map.2 ⟨row, hrow, rfl⟩, List.mem_map.2 ⟨x, hx, h⟩⟩

/-- The innovations of a loop have as many rows (twice as many with antithetic paths), none of them empty if none was. -/
theorem prep_ne {anti stand : Bool} {s : Rows} {row : List Fl} (hs : row ∈ s) (hr : row ≠ []) :
    ∃ row ∈ prep anti stand s, row ≠ [] := by
  unfold prep
  have h1 : row ∈ (if anti then antithetic s else s) := by
    cases anti
    · exact hs
    · exact List.mem_append.2 (.inl hs)
  generalize (if anti then antithetic s else s) = u at h1 ⊢
  cases stand
  · exact ⟨row, h1, hr⟩
  · exact ⟨_, List.mem_map.2 ⟨row, h1, rfl⟩, by simpa using hr⟩

theorem mean_replicate {m : ℕ} (hm : m ≠ 0) (c : ℝ) : MC.mean (List.replicate m c) = c := by
  have : (m : ℝ) ≠ 0 := by exact_mod_cast hm
  rw [MC.mean, List.sum_replicate, List.length_replicate, nsmul_eq_mul]
  field_simp

/-! ### Infinite innovations -/

theorem add_assoc' (a b c : Fl) : a + b + c = a + (b + c) := by
  cases a <;> cases b <;> cases c <;> first | rfl | exact congrArg num (add_assoc _ _ _)

/-- Which values sum to what. -/
theorem sum_values (l : List Fl) : (sum l = pinf → pinf ∈ l) ∧ (sum l = ninf → ninf ∈ l) ∧
    ((∃ y, sum l = num y) → ∀ x ∈ l, ∃ y, x = num y) := by
  induction l with
  | nil =>
    refine ⟨fun h => ?_, fun h => ?_, fun _ x hx => by simp at hx⟩
    · have h : num 0 = pinf := h
      cases h
    · have h : num 0 = ninf := h
      cases h
  | cons x l ih =>
    obtain ⟨i1, i2, i3⟩ := ih
    rw [sum_cons]
    generalize sum l = s at i1 i2 i3 ⊢
    refine ⟨fun h => ?_, fun h => ?_, fun h => ?_⟩
    · cases x <;> cases s <;> first | exact List.mem_cons_of_mem _ (i1 rfl) | exact List.mem_cons_self | cases h
    · cases x <;> cases s <;> first | exact List.mem_cons_of_mem _ (i2 rfl) | exact List.mem_cons_self | cases h
    · obtain ⟨y, h⟩ := h
      cases x with
      | num x =>
        cases s with
        | num s =>
          intro u hu
          rcases List.mem_cons.1 hu with rfl | hu
          · exact ⟨x, rfl⟩
          · exact i3 ⟨s, rfl⟩ u hu
        | _ => cases h
      | _ => cases s <;> cases h

theorem mean_class (l : List Fl) (hl : l ≠ []) :
    (mean l = pinf ∧ sum l = pinf) ∨ (mean l = ninf ∧ sum l = ninf) ∨ mean l = nan ∨
      ∃ y y', mean l = num y ∧ sum l = num y' := by
  have hp : (0 : ℝ) < l.length := by exact_mod_cast List.length_pos_of_ne_nil hl
  unfold mean
  cases sum l with
  | num y => exact .inr (.inr (.inr ⟨_, y, Fl.num_div y hp.ne', rfl⟩))
  | pinf =>
    refine .inl ⟨?_, rfl⟩
    show pinf * (if (l.length : ℝ) = 0 then pinf else num _) = pinf
    rw [if_neg hp.ne']
    exact if_pos (inv_pos.2 hp)
  | ninf =>
    refine .inr (.inl ⟨?_, rfl⟩)
    show ninf * (if (l.length : ℝ) = 0 then pinf else num _) = ninf
    rw [if_neg hp.ne']
    have : -(l.length : ℝ)⁻¹ < 0 := neg_lt_zero.2 (inv_pos.2 hp)
    show Fl.signed (-(l.length : ℝ)⁻¹) = ninf
    unfold Fl.signed
    rw [if_neg this.le.not_gt, if_pos this]
  | nan => exact .inr (.inr (.inl (Fl.nan_div _)))

/-- Standardising a sample with an entry that is not a number gives `nan` everywhere. -/
theorem std_nonfinite {l : List Fl} {x : Fl} (hx : x ∈ l) (h : ∀ y, x ≠ num y) : std l = nan := by
  have : ∃ x ∈ l, x - mean l = nan := by
    rcases mean_class l (List.ne_nil_of_mem hx) with ⟨e, e'⟩ | ⟨e, e'⟩ | e | ⟨y, y', e, e'⟩
    · exact ⟨pinf, (sum_values l).1 e', by rw [e]; rfl⟩
    · exact ⟨ninf, (sum_values l).2.1 e', by rw [e]; rfl⟩
    · exact ⟨x, hx, by rw [e, Fl.sub_nan]⟩
    · obtain ⟨u, hu⟩ := (sum_values l).2.2 ⟨y', e'⟩ x hx
      exact absurd hu (h u)
  obtain ⟨u, hu, e⟩ := this
  unfold std
  rw [mean_nan (List.mem_map.2 ⟨u, hu, by rw [e]; exact Fl.nan_pow 1⟩)]
  rfl

theorem sum_nan_of {l : List Fl} (h1 : pinf ∈ l) (h2 : ninf ∈ l) : sum l = nan := by
  by_contra h
  have hna : nan ∉ l := fun hn => h (sum_nan hn)
  have key : ∀ l : List Fl, nan ∉ l → (pinf ∈ l → sum l = pinf ∨ sum l = nan) ∧ (ninf ∈ l → sum l = ninf ∨ sum l = nan) := by
    intro l
    induction l with
    | nil => intro _; exact ⟨fun h => by simp at h, fun h => by simp at h⟩
    | cons x l ih =>
      intro hn
      simp only [List.mem_cons, not_or] at hn
      obtain ⟨i1, i2⟩ := ih hn.2
      rw [sum_cons]
      refine ⟨fun h => ?_, fun h => ?_⟩
      · rcases List.mem_cons.1 h with rfl | h
        · cases sum l <;> first | exact .inl rfl | exact .inr rfl
        · rcases i1 h with e | e <;> rw [e]
          · cases x <;> first | exact .inl rfl | exact .inr rfl
          · exact .inr (Fl.add_nan _)
      · rcases List.mem_cons.1 h with rfl | h
        · cases sum l <;> first | exact .inl rfl | exact .inr rfl
        · rcases i2 h with e | e <;> rw [e]
          · cases x <;> first | exact .inl rfl | exact .inr rfl
          · exact .inr (Fl.add_nan _)
  obtain ⟨k1, k2⟩ := key l hna
  rcases k1 h1 with e | e
  · rcases k2 h2 with e' | e'
    · rw [e] at e'; cases e'
    · exact h e'
  · exact h e

theorem cumsum_last {l : List Fl} (hl : l ≠ []) (a : Fl) : a + sum l ∈ cumsum a l := by
  induction l generalizing a with
  | nil => exact absurd rfl hl
  | cons x l ih =>
    rw [sum_cons, ← add_assoc', cumsum]
    by_cases h : l = []
    · subst h
      have : a + x + sum [] = a + x := by
        show a + x + num 0 = a + x
        cases a <;> cases x <;> first | rfl | exact congrArg num (add_zero _)
      rw [this]; simp [cumsum]
    · exact List.mem_cons_of_mem _ (ih h _)

theorem zero_add' (x : Fl) : num 0 + x = x := by
  cases x <;> first | rfl | exact congrArg num (zero_add _)

/-- If the log price of a path is `nan` at the end, so is the price the payoff depends on. -/
theorem price_sum_nan (k : Kind) (o : Opt) {l : List Fl} (hl : l ≠ []) (h : sum l = nan) : price k o l = nan := by
  cases k
  · show num o.S * Fl.exp (sum _) = _
    rw [h]; rfl
  · have := cumsum_last hl (num 0)
    rw [zero_add', h] at this
    exact mean_nan (List.mem_map.2 ⟨nan, this, rfl⟩)

/-- Prices of paths without `nan` and without `-inf`. -/
theorem price_pinf (k : Kind) {o : Opt} (hS : 0 < o.S) {l : List Fl} (h : ∀ x ∈ l, x = pinf ∨ ∃ y, x = num y)
    (hp : pinf ∈ l) : price k o l = pinf := by
  have hn : ninf ∉ l := fun hh => by rcases h _ hh with e | ⟨y, e⟩ <;> cases e
  have ha : nan ∉ l := fun hh => by rcases h _ hh with e | ⟨y, e⟩ <;> cases e
  have hs : sum l = pinf := (sum_class hn ha).1 hp
  have sg : num o.S * pinf = pinf := if_pos hS
  cases k
  · show num o.S * Fl.exp (sum _) = _
    rw [hs]; exact sg
  · have hl := List.ne_nil_of_mem hp
    have key : ∀ (l : List Fl) (a : Fl), (∀ x ∈ l, x = pinf ∨ ∃ y, x = num y) → (a = pinf ∨ ∃ y, a = num y) →
        ∀ u ∈ cumsum a l, u = pinf ∨ ∃ y, u = num y := by
      intro l
      induction l with
      | nil => intro a _ _ u hu; simp [cumsum] at hu
      | cons x l ih =>
        intro a h ha u hu
        rw [cumsum] at hu
        have hax : a + x = pinf ∨ ∃ y, a + x = num y := by
          rcases ha with rfl | ⟨y, rfl⟩ <;> rcases h x (by simp) with rfl | ⟨y', rfl⟩
          · exact .inl rfl
          · exact .inl rfl
          · exact .inl rfl
          · exact .inr ⟨_, rfl⟩
        rcases List.mem_cons.1 hu with rfl | hu
        · exact hax
        · exact ih _ (fun x hx => h x (List.mem_cons_of_mem _ hx)) hax u hu
    have last := cumsum_last hl (num 0)
    rw [zero_add', hs] at last
    refine mean_pinf ?_ ?_ (List.mem_map.2 ⟨pinf, last, sg⟩) <;>
    · intro hh
      obtain ⟨u, hu, e⟩ := List.mem_map.1 hh
      rcases key l _ h (.inr ⟨0, rfl⟩) u hu with rfl | ⟨y, rfl⟩
      · rw [show num o.S * Fl.exp pinf = pinf from sg] at e; cases e
      · cases e

/-- Prices are never `-inf` for a nonnegative spot. -/
theorem price_ne_ninf (k : Kind) {o : Opt} (hS : 0 ≤ o.S) (l : List Fl) : price k o l ≠ ninf := by
  have one : ∀ x : Fl, num o.S * Fl.exp x ≠ ninf := by
    intro x h
    cases x with
    | num x => cases h
    | pinf =>
      have h : Fl.signed o.S = ninf := h
      unfold Fl.signed at h
      split_ifs at h with h1 h2
      exact absurd h2 (not_lt.2 hS)
    | ninf => cases h
    | nan => cases h
  cases k
  · exact one _
  · intro h
    have hn : ninf ∉ (cumsum (num 0) l).map fun x => num o.S * Fl.exp x := by
      intro hh
      obtain ⟨u, -, e⟩ := List.mem_map.1 hh
      exact one u e
    have h : mean ((cumsum (num 0) l).map fun x => num o.S * Fl.exp x) = ninf := h
    by_cases hl : (cumsum (num 0) l).map (fun x => num o.S * Fl.exp x) = []
    · rw [hl, mean_nil] at h; cases h
    · rcases mean_class _ hl with ⟨e, -⟩ | ⟨-, e⟩ | e | ⟨y, y', e, -⟩
      · rw [e] at h; cases h
      · exact hn ((sum_values _).2.1 e)
      · rw [e] at h; cases h
      · rw [e] at h; cases h

end Verif.MCFl
