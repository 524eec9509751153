import Verif.Model.RGWEdge
import Verif.Lemmas.Fl
import Verif.Lemmas.CBNDAll
/-!
`_CBND` on numbers that include `nan` and infinities.
-/
namespace Verif.RGWEdge
open Fl (num)

open Classical in
/-- One level of `_CBND`. -/
theorem CBND_succ {n : ℕ} {a b ρ0 ρ : Fl} (h : cbndRho ρ0 = ρ) : CBND (n + 1) a b ρ0 =
    if le0 a ∧ le0 b ∧ le0 ρ then .val (Fl.sqrt (1 - ρ ^ 2) / num Real.pi *
      cbndSum (a / Fl.sqrt (2 * (1 - ρ ^ 2))) (b / Fl.sqrt (2 * (1 - ρ ^ 2))) ρ)
    else if le0 a ∧ ge0 b ∧ ge0 ρ then (CBND n a (-b) (-ρ)).map (fun v => Fl.CND a - v)
    else if ge0 a ∧ le0 b ∧ ge0 ρ then (CBND n (-a) b (-ρ)).map (fun v => Fl.CND b - v)
    else if ge0 a ∧ ge0 b ∧ le0 ρ then (CBND n (-a) (-b) ρ).map (fun v => Fl.CND a + Fl.CND b - 1 + v)
    else if ge0 (a * b * ρ) then
      match CBND n a 0 (redRho a b ρ (a ^ 2 - 2 * ρ * a * b + b ^ 2)),
        CBND n b 0 (redRho b a ρ (a ^ 2 - 2 * ρ * a * b + b ^ 2)) with
      | .val v1, .val v2 => .val (v1 + v2 - (1 - Fl.sign a * Fl.sign b) / 4)
      | .deep, _ => .deep
      | .missing, _ => .missing
      | .val _, o => o
    else .missing := by
  subst h; rfl

section sums

theorem foldl_num {α : Type} {g : Fl → α → Fl} {h : ℝ → α → ℝ} (H : ∀ x a, g (num x) a = num (h x a)) (l : List α) (x : ℝ) :
    l.foldl g (num x) = num (l.foldl h x) := by
  induction l generalizing x with
  | nil => rfl
  | cons a l ih => rw [List.foldl_cons, List.foldl_cons, H, ih]

theorem cbndSum_num (a b ρ : ℝ) : cbndSum (num a) (num b) (num ρ) = num (Verif.cbndSum a b ρ) := by
  rw [cbndSum, Verif.cbndSum, Fl.zero_eq]
  generalize cbndX.zip cbndY = L
  have inner : ∀ (xi : ℝ × ℝ) (l : List (ℝ × ℝ)) (y : ℝ), l.foldl (fun acc' xj =>
      acc' + num xi.1 * num xj.1 * Fl.exp (num a * (2 * num xi.2 - num a) + num b * (2 * num xj.2 - num b)
        + 2 * num ρ * (num xi.2 - num a) * (num xj.2 - num b))) (num y)
      = num (l.foldl (fun acc' xj => acc' + xi.1 * xj.1 *
        Real.exp (a * (2 * xi.2 - a) + b * (2 * xj.2 - b) + 2 * ρ * (xi.2 - a) * (xj.2 - b))) y) := by
    intro xi l y
    refine foldl_num (fun y xj => ?_) l y
    simp only [Fl.two_eq, Fl.num_mul, Fl.num_sub, Fl.num_add, Fl.num_exp]
  exact foldl_num (fun x xi => inner xi L x) L 0

theorem foldl_nan {α : Type} {g : Fl → α → Fl} (H : ∀ a, g .nan a = .nan) (l : List α) : l.foldl g .nan = .nan := by
  induction l with
  | nil => rfl
  | cons a l ih => rw [List.foldl_cons, H, ih]

/-- The sum is `nan` as soon as every exponent is. -/
theorem cbndSum_nan {a b ρ : Fl} (H : ∀ x y : ℝ, a * (2 * num x - a) + b * (2 * num y - b)
    + 2 * ρ * (num x - a) * (num y - b) = .nan) : cbndSum a b ρ = .nan := by
  rw [cbndSum]
  have inner : ∀ (z : Fl) (xi : ℝ × ℝ), (cbndX.zip cbndY).foldl (fun acc' xj =>
      acc' + num xi.1 * num xj.1 * Fl.exp (a * (2 * num xi.2 - a) + b * (2 * num xj.2 - b)
        + 2 * ρ * (num xi.2 - a) * (num xj.2 - b))) z = .nan := by
    intro z xi
    simp only [H, Fl.exp_nan, Fl.mul_nan, Fl.add_nan]
    rfl
  simp only [inner]
  rfl

end sums

/-! ### Depth of the recursion -/

theorem le0_neg (x : Fl) : le0 (-x) ↔ ge0 x := by
  cases x with
  | num x => rw [Fl.num_neg]; simp [le0, ge0]
  | pinf => exact Iff.rfl
  | ninf => exact Iff.rfl
  | nan => exact Iff.rfl

theorem sign_cbndRho (x : Fl) : (le0 (cbndRho x) ↔ le0 x) ∧ (ge0 (cbndRho x) ↔ ge0 x) := by
  cases x with
  | num x => exact cbndRho_sign x
  | _ => exact ⟨Iff.rfl, Iff.rfl⟩

theorem sign_total {x : Fl} (h : x ≠ .nan) : le0 x ∨ ge0 x := by
  cases x with
  | num x => exact le_total x 0
  | pinf => exact .inr trivial
  | ninf => exact .inl trivial
  | nan => exact absurd rfl h

theorem base_ne_deep {a b ρ : Fl} (n : ℕ) (ha : le0 a) (hb : le0 b) (hρ : le0 ρ) : CBND (n + 1) a b ρ ≠ .deep := by
  rw [CBND_succ rfl, if_pos ⟨ha, hb, (sign_cbndRho ρ).1.2 hρ⟩]
  exact Out.noConfusion

theorem map_ne_deep {o : Out} {f : Fl → Fl} (h : o ≠ .deep) : o.map f ≠ .deep := by
  cases o with
  | deep => exact absurd rfl h
  | _ => exact Out.noConfusion

/-- `_CBND` recurses at most twice. -/
theorem CBND_ne_deep (n : ℕ) (a b ρ : Fl) : CBND (n + 3) a b ρ ≠ .deep := by
  have step : ∀ (m : ℕ) (a b ρ : Fl),
      (¬ (le0 a ∧ le0 b ∧ le0 ρ) → ¬ (le0 a ∧ ge0 b ∧ ge0 ρ) → ¬ (ge0 a ∧ le0 b ∧ ge0 ρ) → ¬ (ge0 a ∧ ge0 b ∧ le0 ρ) →
        ge0 (a * b * cbndRho ρ) → ∀ x y : Fl, CBND (m + 1) a 0 x ≠ .deep ∧ CBND (m + 1) b 0 y ≠ .deep) →
      CBND (m + 2) a b ρ ≠ .deep := by
    intro m a b ρ H
    have s := sign_cbndRho ρ
    have k : ge0 (cbndRho ρ) → le0 (-cbndRho ρ) := (le0_neg _).2
    rw [CBND_succ rfl]
    by_cases h1 : le0 a ∧ le0 b ∧ le0 (cbndRho ρ)
    · rw [if_pos h1]; exact Out.noConfusion
    rw [if_neg h1]
    by_cases h2 : le0 a ∧ ge0 b ∧ ge0 (cbndRho ρ)
    · rw [if_pos h2]; exact map_ne_deep (base_ne_deep m h2.1 ((le0_neg _).2 h2.2.1) (k h2.2.2))
    rw [if_neg h2]
    by_cases h3 : ge0 a ∧ le0 b ∧ ge0 (cbndRho ρ)
    · rw [if_pos h3]; exact map_ne_deep (base_ne_deep m ((le0_neg _).2 h3.1) h3.2.1 (k h3.2.2))
    rw [if_neg h3]
    by_cases h4 : ge0 a ∧ ge0 b ∧ le0 (cbndRho ρ)
    · rw [if_pos h4]; exact map_ne_deep (base_ne_deep m ((le0_neg _).2 h4.1) ((le0_neg _).2 h4.2.1) h4.2.2)
    rw [if_neg h4]
    by_cases h5 : ge0 (a * b * cbndRho ρ)
    · rw [if_pos h5]
      rw [s.1] at h1 h4
      rw [s.2] at h2 h3
      have := H h1 h2 h3 h4 h5 (redRho a b (cbndRho ρ) (a ^ 2 - 2 * cbndRho ρ * a * b + b ^ 2))
        (redRho b a (cbndRho ρ) (a ^ 2 - 2 * cbndRho ρ * a * b + b ^ 2))
      revert this
      generalize CBND (m + 1) a 0 _ = o1
      generalize CBND (m + 1) b 0 _ = o2
      intro this
      cases o1 <;> cases o2 <;> simp at this ⊢
    · rw [if_neg h5]; exact Out.noConfusion
  have zero : ∀ (m : ℕ) (a x : Fl), CBND (m + 2) a 0 x ≠ .deep := by
    intro m a x
    apply step
    intro h1 h2 h3 h4 h5
    exfalso
    have z : le0 0 ∧ ge0 0 := by rw [Fl.zero_eq]; exact ⟨le_refl (0 : ℝ), le_refl (0 : ℝ)⟩
    by_cases ha : a = .nan
    · subst ha; rw [Fl.nan_mul, Fl.nan_mul] at h5; exact h5
    by_cases hx : x = .nan
    · subst hx; rw [show cbndRho .nan = .nan from rfl, Fl.mul_nan] at h5; exact h5
    rcases sign_total ha with k | k <;> rcases sign_total hx with k' | k'
    · exact h1 ⟨k, z.1, k'⟩
    · exact h2 ⟨k, z.2, k'⟩
    · exact h4 ⟨k, z.2, k'⟩
    · exact h3 ⟨k, z.1, k'⟩
  exact step (n + 1) a b ρ fun _ _ _ _ _ x y => ⟨zero n a x, zero n b y⟩

/-! ### Where the correlation is outside `[-1, 1]` -/

/-- Correlations with `1 - ρ² < 0`. -/
def Bad : Fl → Prop
  | num ρ => 1 < ρ ^ 2
  | .pinf => True
  | .ninf => True
  | .nan => False

theorem inf_sq {x : Fl} (h : x = .pinf ∨ x = .ninf) : x ^ 2 = .pinf := by
  show Fl.npow x 2 = _
  simp only [Fl.npow, Fl.one_eq]
  rcases h with rfl | rfl
  · show Fl.mul (Fl.mul (num 1) .pinf) .pinf = _
    rw [Fl.mul, Fl.signed, if_pos one_pos]; rfl
  · show Fl.mul (Fl.mul (num 1) .ninf) .ninf = _
    rw [Fl.mul, Fl.signed, if_neg (by norm_num), if_pos (by norm_num)]; rfl

theorem bad_rho {ρ : Fl} (h : Bad ρ) : cbndRho ρ = ρ := by
  cases ρ with
  | num ρ =>
    rw [cbndRho, Verif.cbndRho, if_neg]
    intro h1
    have : ρ ^ 2 = 1 := by rw [← sq_abs, h1]; norm_num
    simp only [Bad] at h
    linarith
  | _ => rfl

theorem bad_sqrt {ρ : Fl} (h : Bad ρ) : Fl.sqrt (1 - ρ ^ 2) = .nan ∧ Fl.sqrt (2 * (1 - ρ ^ 2)) = .nan := by
  have inf : ∀ x : Fl, x = .pinf ∨ x = .ninf → Fl.sqrt (1 - x ^ 2) = .nan ∧ Fl.sqrt (2 * (1 - x ^ 2)) = .nan := by
    intro x hx
    rw [inf_sq hx, Fl.one_eq, Fl.two_eq]
    refine ⟨rfl, ?_⟩
    show Fl.sqrt (Fl.mul (num 2) .ninf) = _
    rw [Fl.mul, Fl.signed, if_neg (by norm_num), if_pos (by norm_num)]; rfl
  cases ρ with
  | num ρ =>
    simp only [Bad] at h
    simp only [Fl.one_eq, Fl.two_eq, Fl.num_pow, Fl.num_sub, Fl.num_mul]
    exact ⟨Fl.sqrt_neg (by linarith), Fl.sqrt_neg (by linarith)⟩
  | pinf => exact inf _ (.inl rfl)
  | ninf => exact inf _ (.inr rfl)
  | nan => exact h.elim

theorem bad_neg {ρ : Fl} (h : Bad ρ) : Bad (-ρ) := by
  cases ρ with
  | num ρ => simpa [Bad, Fl.num_neg] using h
  | pinf => trivial
  | ninf => trivial
  | nan => exact h

theorem bad_sign {ρ : Fl} (h : Bad ρ) : (le0 ρ ∧ ¬ ge0 ρ ∧ ge0 (-ρ)) ∨ (ge0 ρ ∧ ¬ le0 ρ ∧ le0 (-ρ)) := by
  cases ρ with
  | num ρ =>
    simp only [Bad] at h
    simp only [Fl.num_neg, le0, ge0, not_le]
    rcases lt_trichotomy ρ 0 with h' | h' | h'
    · left; exact ⟨h'.le, h', by linarith⟩
    · subst h'; norm_num at h
    · right; exact ⟨h'.le, h', by linarith⟩
  | pinf => right; exact ⟨trivial, id, trivial⟩
  | ninf => left; exact ⟨trivial, id, trivial⟩
  | nan => exact h.elim

theorem CBND_bad_base {ρ a b : Fl} (n : ℕ) (h : Bad ρ) (ha : le0 a) (hb : le0 b) (hρ : le0 ρ) :
    CBND (n + 1) a b ρ = .val .nan := by
  rw [CBND_succ (bad_rho h), if_pos ⟨ha, hb, hρ⟩, (bad_sqrt h).1, Fl.nan_div, Fl.nan_mul]

theorem num_le0_neg {x : ℝ} : le0 (-num x) ↔ ge0 (num x) := by
  rw [Fl.num_neg]; simp [le0, ge0]

theorem CBND_bad_direct {ρ : Fl} {a b : ℝ} (n : ℕ) (h : Bad ρ)
    (hd : (le0 ρ ∧ (a ≤ 0 ∧ b ≤ 0 ∨ 0 ≤ a ∧ 0 ≤ b)) ∨ (ge0 ρ ∧ (a ≤ 0 ∧ 0 ≤ b ∨ 0 ≤ a ∧ b ≤ 0))) :
    CBND (n + 2) (num a) (num b) ρ = .val .nan := by
  have hs := bad_sign h
  have base := fun {a b : Fl} => CBND_bad_base (a := a) (b := b) n h
  have base' := fun {a b : Fl} => CBND_bad_base (a := a) (b := b) n (bad_neg h)
  by_cases h1 : le0 (num a) ∧ le0 (num b) ∧ le0 ρ
  · exact CBND_bad_base (n + 1) h h1.1 h1.2.1 h1.2.2
  rw [CBND_succ (bad_rho h), if_neg h1]
  by_cases h2 : le0 (num a) ∧ ge0 (num b) ∧ ge0 ρ
  · rw [if_pos h2, base' h2.1 (num_le0_neg.2 h2.2.1) (by tauto)]; simp [Out.map, Fl.sub_nan]
  rw [if_neg h2]
  by_cases h3 : ge0 (num a) ∧ le0 (num b) ∧ ge0 ρ
  · rw [if_pos h3, base' (num_le0_neg.2 h3.1) h3.2.1 (by tauto)]; simp [Out.map, Fl.sub_nan]
  rw [if_neg h3]
  by_cases h4 : ge0 (num a) ∧ ge0 (num b) ∧ le0 ρ
  · rw [if_pos h4, base (num_le0_neg.2 h4.1) (num_le0_neg.2 h4.2.1) h4.2.2]; simp [Out.map, Fl.add_nan]
  exfalso
  simp only [show ∀ x, le0 (num x) = (x ≤ 0) from fun _ => rfl, show ∀ x, ge0 (num x) = (0 ≤ x) from fun _ => rfl] at *
  tauto

theorem CBND_bad_zero {ρ : Fl} (a : ℝ) (n : ℕ) (h : Bad ρ) : CBND (n + 2) (num a) 0 ρ = .val .nan := by
  rw [Fl.zero_eq]
  apply CBND_bad_direct n h
  rcases bad_sign h with hs | hs <;> rcases le_total a 0 with ha | ha
  · exact .inl ⟨hs.1, .inl ⟨ha, le_rfl⟩⟩
  · exact .inl ⟨hs.1, .inr ⟨ha, le_rfl⟩⟩
  · exact .inr ⟨hs.1, .inl ⟨ha, le_rfl⟩⟩
  · exact .inr ⟨hs.1, .inr ⟨ha, le_rfl⟩⟩

/-- A `nan` among the arguments makes `_CBND` return `None`. -/
theorem CBND_nan {a b ρ : Fl} (n : ℕ) (h : a = .nan ∨ b = .nan ∨ ρ = .nan) : CBND (n + 1) a b ρ = .missing := by
  have e : a * b * cbndRho ρ = .nan := by
    rcases h with rfl | rfl | rfl
    · rw [Fl.nan_mul, Fl.nan_mul]
    · rw [Fl.mul_nan, Fl.nan_mul]
    · exact Fl.mul_nan _
  have hn : ¬ le0 .nan ∧ ¬ ge0 .nan := ⟨id, id⟩
  have hc : ∀ p q s : Fl → Prop, (¬ p .nan) → (¬ q .nan) → (¬ s .nan) → ¬ (p a ∧ q b ∧ s (cbndRho ρ)) := by
    rintro p q s hp hq hs ⟨h1, h2, h3⟩
    rcases h with rfl | rfl | rfl
    · exact hp h1
    · exact hq h2
    · exact hs h3
  rw [CBND_succ rfl, if_neg (hc le0 le0 le0 hn.1 hn.1 hn.1), if_neg (hc le0 ge0 ge0 hn.1 hn.2 hn.2), if_neg (hc ge0 le0 ge0 hn.2 hn.1 hn.2),
    if_neg (hc ge0 ge0 le0 hn.2 hn.2 hn.1), e, if_neg hn.2]

theorem redRho_bad {a b ρ : ℝ} (ha : a ≠ 0) (hρ : 1 < ρ ^ 2) (hq : 0 ≤ a ^ 2 - 2 * ρ * a * b + b ^ 2) :
    Bad (redRho (num a) (num b) (num ρ) (num (a ^ 2 - 2 * ρ * a * b + b ^ 2))) := by
  have hs : npSign a ^ 2 = 1 := by
    rcases lt_or_gt_of_ne ha with h | h
    · rw [npSign_of_neg h]; norm_num
    · rw [npSign_of_pos h]; norm_num
  have h2 : a ^ 2 - 2 * ρ * a * b + b ^ 2 < ((ρ * a - b) * npSign a) ^ 2 := by
    rw [mul_pow, hs]
    have : 0 < a ^ 2 := by positivity
    nlinarith
  rw [redRho, Fl.num_sqrt hq]
  simp only [Fl.num_mul, Fl.num_sub, Fl.num_sign]
  rcases hq.eq_or_lt with h0 | h0
  · rw [← h0, Real.sqrt_zero]
    show Bad (Fl.mul (num _) (Fl.inv (num 0)))
    rw [Fl.inv, if_pos rfl, Fl.mul, Fl.signed]
    split_ifs with h3 h4
    · trivial
    · trivial
    · exfalso
      have : (ρ * a - b) * npSign a = 0 := le_antisymm (not_lt.1 h3) (not_lt.1 h4)
      rw [this] at h2
      norm_num at h2
      linarith
  · rw [Fl.num_div _ (Real.sqrt_pos.2 h0).ne']
    show 1 < _
    rw [div_pow, Real.sq_sqrt hq, one_lt_div h0]
    exact h2

/-- `_CBND` with a correlation below `-1` is `nan`, or `None` where the quadratic form is negative. -/
theorem CBND_low {a b ρ : ℝ} (n : ℕ) (hρ : ρ < -1) : CBND (n + 3) (num a) (num b) (num ρ) =
    if a * b < 0 ∧ a ^ 2 - 2 * ρ * a * b + b ^ 2 < 0 then .missing else .val .nan := by
  have h1 : 1 < ρ ^ 2 := by nlinarith
  have hB : Bad (num ρ) := h1
  by_cases hab : a * b < 0
  · have ha : a ≠ 0 := by rintro rfl; simp at hab
    have hb : b ≠ 0 := by rintro rfl; simp at hab
    have p1 : ¬ (a ≤ 0 ∧ b ≤ 0 ∧ ρ ≤ 0) := fun h => by nlinarith [mul_nonneg_of_nonpos_of_nonpos h.1 h.2.1]
    have p2 : ¬ (a ≤ 0 ∧ 0 ≤ b ∧ 0 ≤ ρ) := fun h => by linarith [h.2.2]
    have p3 : ¬ (0 ≤ a ∧ b ≤ 0 ∧ 0 ≤ ρ) := fun h => by linarith [h.2.2]
    have p4 : ¬ (0 ≤ a ∧ 0 ≤ b ∧ ρ ≤ 0) := fun h => by nlinarith [mul_nonneg h.1 h.2.1]
    rw [CBND_succ (bad_rho hB), if_neg (show ¬ (le0 (num a) ∧ le0 (num b) ∧ le0 (num ρ)) from p1),
      if_neg (show ¬ (le0 (num a) ∧ ge0 (num b) ∧ ge0 (num ρ)) from p2),
      if_neg (show ¬ (ge0 (num a) ∧ le0 (num b) ∧ ge0 (num ρ)) from p3),
      if_neg (show ¬ (ge0 (num a) ∧ ge0 (num b) ∧ le0 (num ρ)) from p4)]
    have e : num a * num b * num ρ = num (a * b * ρ) := rfl
    have hq : num a ^ 2 - 2 * num ρ * num a * num b + num b ^ 2 = num (a ^ 2 - 2 * ρ * a * b + b ^ 2) := by
      simp only [Fl.two_eq, Fl.num_pow, Fl.num_mul, Fl.num_sub, Fl.num_add]
    rw [e, if_pos (show ge0 (num _) from mul_nonneg_of_nonpos_of_nonpos hab.le (by linarith)), hq]
    by_cases hn : a ^ 2 - 2 * ρ * a * b + b ^ 2 < 0
    · rw [if_pos ⟨hab, hn⟩]
      simp only [redRho, Fl.sqrt_neg hn, Fl.div_nan]
      rw [CBND_nan (n + 1) (.inr (.inr rfl)), CBND_nan (n + 1) (.inr (.inr rfl))]
    · rw [if_neg (fun h => hn h.2)]
      have r1 := redRho_bad ha h1 (not_lt.1 hn)
      have r2 := redRho_bad hb h1 (b := a) (by linarith [not_lt.1 hn])
      rw [show b ^ 2 - 2 * ρ * b * a + a ^ 2 = a ^ 2 - 2 * ρ * a * b + b ^ 2 by ring] at r2
      rw [CBND_bad_zero a n r1, CBND_bad_zero b n r2]
      simp only [Fl.nan_add, Fl.nan_sub]
  · rw [if_neg (fun h => hab h.1)]
    apply CBND_bad_direct (n + 1) hB
    left
    refine ⟨show ρ ≤ 0 by linarith, ?_⟩
    rcases le_total a 0 with ha | ha <;> rcases le_total b 0 with hb | hb
    · exact .inl ⟨ha, hb⟩
    · have : a * b = 0 := le_antisymm (mul_nonpos_of_nonpos_of_nonneg ha hb) (not_lt.1 hab)
      rcases mul_eq_zero.1 this with h | h
      · exact .inr ⟨h.ge, hb⟩
      · exact .inl ⟨ha, h.le⟩
    · have : a * b = 0 := le_antisymm (mul_nonpos_of_nonneg_of_nonpos ha hb) (not_lt.1 hab)
      rcases mul_eq_zero.1 this with h | h
      · exact .inl ⟨h.le, hb⟩
      · exact .inr ⟨ha, h.ge⟩
    · exact .inr ⟨ha, hb⟩

/-! ### Correlation zero and an infinite argument -/

theorem ninf_div {x : ℝ} (h : 0 < x) : Fl.ninf / num x = .ninf := by
  show Fl.mul .ninf (Fl.inv (num x)) = _
  rw [Fl.inv, if_neg h.ne', Fl.mul, Fl.signed, if_neg (by have := inv_pos.2 h; linarith), if_pos (by have := inv_pos.2 h; linarith)]

theorem CBND_zero_base {a : Fl} (n : ℕ) (ha : le0 a) : CBND (n + 1) a .ninf (num 0) = .val .nan := by
  have hr : cbndRho (num 0) = num 0 := by rw [cbndRho, Verif.cbndRho, if_neg (by norm_num)]
  have hs : Fl.sqrt (2 * (1 - num 0 ^ 2)) = num (Real.sqrt 2) := by
    simp only [Fl.one_eq, Fl.two_eq, Fl.num_pow, Fl.num_sub, Fl.num_mul]
    rw [Fl.num_sqrt (by norm_num)]; norm_num
  rw [CBND_succ hr, hs, if_pos ⟨ha, trivial, show (0 : ℝ) ≤ 0 from le_rfl⟩, cbndSum_nan, Fl.mul_nan]
  intro x y
  rw [ninf_div (by positivity)]
  have hz : num y - .ninf = .pinf := rfl
  have h0 : 2 * num 0 = num 0 := by rw [Fl.two_eq, Fl.num_mul, mul_zero]
  have key : ∀ z : Fl, num 0 * z * .pinf = .nan := by
    intro z
    have s0 : ∀ c : ℝ, c = 0 → Fl.signed c = .nan := by rintro c rfl; simp [Fl.signed]
    cases z with
    | num z =>
      rw [Fl.num_mul, zero_mul]; exact s0 0 rfl
    | pinf => show Fl.mul (Fl.signed 0) .pinf = _; rw [s0 0 rfl]; rfl
    | ninf => show Fl.mul (Fl.signed (-0)) .pinf = _; rw [s0 _ (by simp)]; rfl
    | nan => rfl
  rw [hz, h0, key, Fl.add_nan]

/-- With correlation zero and an infinite second argument the value is `nan`. -/
theorem CBND_zero {a b : Fl} (n : ℕ) (ha : a ≠ .nan) (hb : b = .pinf ∨ b = .ninf) :
    CBND (n + 2) a b (num 0) = .val .nan := by
  have hr : cbndRho (num 0) = num 0 := by rw [cbndRho, Verif.cbndRho, if_neg (by norm_num)]
  have h0 : le0 (num 0) ∧ ge0 (num 0) ∧ -num 0 = num 0 := ⟨le_refl (0 : ℝ), le_refl (0 : ℝ), by rw [Fl.num_neg, neg_zero]⟩
  have hsg : le0 a ∨ (¬ le0 a ∧ ge0 a ∧ le0 (-a)) := by
    cases a with
    | num x =>
      rcases le_or_gt x 0 with h | h
      · exact .inl h
      · exact .inr ⟨not_le.2 h, h.le, by rw [Fl.num_neg]; show -x ≤ 0; linarith⟩
    | pinf => exact .inr ⟨id, trivial, trivial⟩
    | ninf => exact .inl trivial
    | nan => exact absurd rfl ha
  rcases hb with rfl | rfl
  · rw [CBND_succ hr, h0.2.2]
    rcases hsg with h | h
    · rw [if_neg (fun k => k.2.1), if_pos ⟨h, trivial, h0.2.1⟩, show -Fl.pinf = Fl.ninf from rfl, CBND_zero_base n h]
      simp [Out.map, Fl.sub_nan]
    · rw [if_neg (fun k => h.1 k.1), if_neg (fun k => h.1 k.1), if_neg (fun k => k.2.1), if_pos ⟨h.2.1, trivial, h0.1⟩,
        show -Fl.pinf = Fl.ninf from rfl, CBND_zero_base n h.2.2]
      simp [Out.map, Fl.add_nan]
  · rcases hsg with h | h
    · exact CBND_zero_base (n + 1) h
    · rw [CBND_succ hr, h0.2.2, if_neg (fun k => h.1 k.1), if_neg (fun k => h.1 k.1), if_pos ⟨h.2.1, trivial, h0.2.1⟩, CBND_zero_base n h.2.2]
      simp [Out.map, Fl.sub_nan]

/-- Both arguments infinite with opposite signs and a negative correlation: `None`. -/
theorem CBND_inf {ρ : ℝ} (n : ℕ) (hρ : ρ < 0) : CBND (n + 2) .ninf .pinf (num ρ) = .missing := by
  have hr : Verif.cbndRho ρ < 0 := by
    have := (cbndRho_sign ρ).2
    rw [← not_le, this, not_le]; exact hρ
  have m1 : Fl.ninf * Fl.pinf * num (Verif.cbndRho ρ) = .pinf := by
    show Fl.mul .ninf (num _) = _
    rw [Fl.mul, Fl.signed, if_pos (by linarith)]
  have q : (Fl.ninf ^ 2 - 2 * num (Verif.cbndRho ρ) * Fl.ninf * Fl.pinf + Fl.pinf ^ 2 : Fl) = .nan := by
    rw [inf_sq (.inr rfl), inf_sq (.inl rfl), Fl.two_eq, Fl.num_mul]
    have : num (2 * Verif.cbndRho ρ) * Fl.ninf = .pinf := by
      show Fl.mul (num _) .ninf = _
      rw [Fl.mul, Fl.signed, if_pos (by linarith)]
    rw [this]; rfl
  rw [CBND_succ (show cbndRho (num ρ) = num (Verif.cbndRho ρ) from rfl), if_neg (fun k => k.2.1), if_neg (fun k => not_le.2 hr k.2.2), if_neg (fun k => k.1),
    if_neg (fun k => k.1), m1, if_pos (show ge0 Fl.pinf from trivial), q]
  simp only [redRho, Fl.sqrt_nan, Fl.div_nan]
  rw [CBND_nan n (.inr (.inr rfl)), CBND_nan n (.inr (.inr rfl))]

/-! ### Agreement with the real model -/

theorem CBND_agrees (n : ℕ) : ∀ {a b ρ : ℝ}, |ρ| ≤ 1 → ∀ {v : ℝ}, Verif.CBND n a b ρ = some v →
    CBND n (num a) (num b) (num ρ) = .val (num v) := by
  induction n with
  | zero => intro a b ρ _ v h; simp [Verif.CBND] at h
  | succ n ih =>
    intro a b ρ0 hρ0 v h
    have hlt := cbndRho_lt hρ0
    rw [CBND_succ (show cbndRho (num ρ0) = num (Verif.cbndRho ρ0) from rfl)]
    rw [Verif.CBND] at h
    simp only at h
    generalize Verif.cbndRho ρ0 = ρ at h hlt ⊢
    have hsq : 0 < 1 - ρ ^ 2 := by
      have : ρ ^ 2 < 1 := by rw [← sq_abs]; nlinarith [abs_nonneg ρ]
      linarith
    have e1 : Fl.sqrt (1 - num ρ ^ 2) = num (Real.sqrt (1 - ρ ^ 2)) := by
      simp only [Fl.one_eq, Fl.num_pow, Fl.num_sub]; exact Fl.num_sqrt hsq.le
    have e2 : Fl.sqrt (2 * (1 - num ρ ^ 2)) = num (Real.sqrt (2 * (1 - ρ ^ 2))) := by
      simp only [Fl.one_eq, Fl.two_eq, Fl.num_pow, Fl.num_sub, Fl.num_mul]; exact Fl.num_sqrt (by linarith)
    have hs2 : Real.sqrt (2 * (1 - ρ ^ 2)) ≠ 0 := (Real.sqrt_pos.2 (by linarith)).ne'
    have g1 : Fl.sqrt (1 - num ρ ^ 2) / num Real.pi * cbndSum (num a / Fl.sqrt (2 * (1 - num ρ ^ 2)))
        (num b / Fl.sqrt (2 * (1 - num ρ ^ 2))) (num ρ) = num (Real.sqrt (1 - ρ ^ 2) / Real.pi *
        Verif.cbndSum (a / Real.sqrt (2 * (1 - ρ ^ 2))) (b / Real.sqrt (2 * (1 - ρ ^ 2))) ρ) := by
      simp only [e1, e2, Fl.num_div _ hs2, Fl.num_div _ Real.pi_ne_zero, cbndSum_num, Fl.num_mul]
    have habs : |-ρ| ≤ 1 := by rw [abs_neg]; exact hlt.le
    by_cases h1 : a ≤ 0 ∧ b ≤ 0 ∧ ρ ≤ 0
    · rw [if_pos h1] at h
      rw [if_pos (show le0 (num a) ∧ le0 (num b) ∧ le0 (num ρ) from h1)]
      rw [g1, Option.some.inj h]
    rw [if_neg h1] at h
    rw [if_neg (show ¬ (le0 (num a) ∧ le0 (num b) ∧ le0 (num ρ)) from h1)]
    by_cases h2 : a ≤ 0 ∧ 0 ≤ b ∧ 0 ≤ ρ
    · rw [if_pos h2] at h
      rw [if_pos (show le0 (num a) ∧ ge0 (num b) ∧ ge0 (num ρ) from h2)]
      obtain ⟨w, hw, rfl⟩ := Option.map_eq_some_iff.1 h
      simp only [Fl.num_neg]; rw [ih habs hw]; simp only [Out.map, Fl.CND_num, Fl.num_sub]
    rw [if_neg h2] at h
    rw [if_neg (show ¬ (le0 (num a) ∧ ge0 (num b) ∧ ge0 (num ρ)) from h2)]
    by_cases h3 : 0 ≤ a ∧ b ≤ 0 ∧ 0 ≤ ρ
    · rw [if_pos h3] at h
      rw [if_pos (show ge0 (num a) ∧ le0 (num b) ∧ ge0 (num ρ) from h3)]
      obtain ⟨w, hw, rfl⟩ := Option.map_eq_some_iff.1 h
      simp only [Fl.num_neg]; rw [ih habs hw]; simp only [Out.map, Fl.CND_num, Fl.num_sub]
    rw [if_neg h3] at h
    rw [if_neg (show ¬ (ge0 (num a) ∧ le0 (num b) ∧ ge0 (num ρ)) from h3)]
    by_cases h4 : 0 ≤ a ∧ 0 ≤ b ∧ ρ ≤ 0
    · rw [if_pos h4] at h
      rw [if_pos (show ge0 (num a) ∧ ge0 (num b) ∧ le0 (num ρ) from h4)]
      obtain ⟨w, hw, rfl⟩ := Option.map_eq_some_iff.1 h
      simp only [Fl.num_neg]; rw [ih hlt.le hw]; simp only [Out.map, Fl.CND_num, Fl.num_sub, Fl.num_add, Fl.one_eq]
    rw [if_neg h4] at h
    rw [if_neg (show ¬ (ge0 (num a) ∧ ge0 (num b) ∧ le0 (num ρ)) from h4)]
    have hp : 0 < a * b * ρ := not_direct_pos (fun k => by simp only [Direct, ge_iff_le] at k; tauto)
    have ha : a ≠ 0 := by rintro rfl; simp at hp
    have hb : b ≠ 0 := by rintro rfl; simp at hp
    rw [if_pos hp.le] at h
    rw [if_pos (show ge0 (num a * num b * num ρ) from hp.le)]
    have hq := quadForm_pos (a := a) hlt hb
    have eq : num a ^ 2 - 2 * num ρ * num a * num b + num b ^ 2 = num (a ^ 2 - 2 * ρ * a * b + b ^ 2) := by
      simp only [Fl.two_eq, Fl.num_pow, Fl.num_mul, Fl.num_sub, Fl.num_add]
    have r1 : redRho (num a) (num b) (num ρ) (num (a ^ 2 - 2 * ρ * a * b + b ^ 2)) = num (Verif.redRho a b ρ) := by
      rw [redRho, Fl.num_sqrt hq.le]
      simp only [Fl.num_mul, Fl.num_sub, Fl.num_sign, Fl.num_div _ (Real.sqrt_pos.2 hq).ne']
      rfl
    have r2 : redRho (num b) (num a) (num ρ) (num (a ^ 2 - 2 * ρ * a * b + b ^ 2)) = num (Verif.redRho b a ρ) := by
      rw [redRho, Fl.num_sqrt hq.le]
      simp only [Fl.num_mul, Fl.num_sub, Fl.num_sign, Fl.num_div _ (Real.sqrt_pos.2 hq).ne', Verif.redRho]
      rw [show b ^ 2 - 2 * ρ * b * a + a ^ 2 = a ^ 2 - 2 * ρ * a * b + b ^ 2 by ring]
    have k1 : (ρ * a - b) * npSign a / Real.sqrt (a ^ 2 - 2 * ρ * a * b + b ^ 2) = Verif.redRho a b ρ := rfl
    have k2 : (ρ * b - a) * npSign b / Real.sqrt (a ^ 2 - 2 * ρ * a * b + b ^ 2) = Verif.redRho b a ρ := by
      rw [Verif.redRho, show b ^ 2 - 2 * ρ * b * a + a ^ 2 = a ^ 2 - 2 * ρ * a * b + b ^ 2 by ring]
    rw [k1, k2] at h
    rw [eq, r1, r2, Fl.zero_eq]
    rcases h5 : Verif.CBND n a 0 (Verif.redRho a b ρ) with _ | v1
    · rw [h5] at h; simp at h
    rcases h6 : Verif.CBND n b 0 (Verif.redRho b a ρ) with _ | v2
    · rw [h5, h6] at h; simp at h
    rw [h5, h6] at h
    rw [ih (redRho_lt hlt ha hb).le h5, ih (redRho_lt hlt hb ha).le h6, ← Option.some.inj h]
    simp only [Fl.num_sign, Fl.num_mul, Fl.one_eq, Fl.four_eq, Fl.num_sub, Fl.num_add, Fl.num_div _ (four_ne_zero : (4 : ℝ) ≠ 0)]

end Verif.RGWEdge
