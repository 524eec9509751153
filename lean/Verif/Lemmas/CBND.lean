import Verif.Model.Normal
import Verif.Lemmas.CNDError

/-!
`_CBND` without recursion: `bvn`, and the proof that the recursive function computes it with three nested
calls at most.
-/
namespace Verif
open Real

theorem cbndRho_neg (x : ℝ) : cbndRho (-x) = -cbndRho x := by
  unfold cbndRho
  rw [abs_neg, npSign_neg]
  split <;> ring

theorem cbndRho_sign (x : ℝ) : (cbndRho x ≤ 0 ↔ x ≤ 0) ∧ (0 ≤ cbndRho x ↔ 0 ≤ x) := by
  unfold cbndRho
  split
  · next h =>
    rcases (abs_eq (by norm_num : (0 : ℝ) ≤ 1)).1 h with rfl | rfl <;> norm_num [npSign]
  · simp

theorem cbndRho_idem (x : ℝ) : cbndRho (cbndRho x) = cbndRho x := by
  by_cases h : |x| = 1
  · have h1 : |cbndRho x| ≠ 1 := by
      unfold cbndRho
      rcases (abs_eq (by norm_num : (0 : ℝ) ≤ 1)).1 h with rfl | rfl <;> norm_num [npSign, abs_of_pos, abs_of_neg]
    rw [cbndRho, if_neg h1]
  · have : cbndRho x = x := by rw [cbndRho, if_neg h]
    rw [this, this]

/-- The quadrature of base.py:87-104. -/
noncomputable def quadr (a b ρ : ℝ) : ℝ :=
  √(1 - ρ ^ 2) / π * cbndSum (a / √(2 * (1 - ρ ^ 2))) (b / √(2 * (1 - ρ ^ 2))) ρ

theorem cbndSum_symm (a b ρ : ℝ) : cbndSum a b ρ = cbndSum b a ρ := by
  simp only [cbndSum, cbndX, cbndY, List.zip_cons_cons, List.zip_nil_right, List.foldl_cons, List.foldl_nil]
  have e : ∀ x y : ℝ, exp (a * (2 * x - a) + b * (2 * y - b) + 2 * ρ * (x - a) * (y - b))
      = exp (b * (2 * y - b) + a * (2 * x - a) + 2 * ρ * (y - b) * (x - a)) := by
    intro x y; congr 1; ring
  simp only [e]
  ring

theorem quadr_symm (a b ρ : ℝ) : quadr a b ρ = quadr b a ρ := by
  rw [quadr, quadr, cbndSum_symm]

open Classical in
/-- The four sign patterns that need no reduction. -/
noncomputable def flat (a b ρ : ℝ) : ℝ :=
  if a ≤ 0 ∧ b ≤ 0 ∧ ρ ≤ 0 then quadr a b ρ
  else if a ≤ 0 ∧ b ≥ 0 ∧ ρ ≥ 0 then CND a - quadr a (-b) (-ρ)
  else if a ≥ 0 ∧ b ≤ 0 ∧ ρ ≥ 0 then CND b - quadr (-a) b (-ρ)
  else CND a + CND b - 1 + quadr (-a) (-b) ρ

/-- One of the first four branches of `_CBND` applies. -/
def Direct (a b ρ : ℝ) : Prop :=
  (a ≤ 0 ∧ b ≤ 0 ∧ ρ ≤ 0) ∨ (a ≤ 0 ∧ b ≥ 0 ∧ ρ ≥ 0) ∨ (a ≥ 0 ∧ b ≤ 0 ∧ ρ ≥ 0) ∨ (a ≥ 0 ∧ b ≥ 0 ∧ ρ ≤ 0)

/-- The reduced correlation of base.py:117-118. -/
noncomputable def redRho (a b ρ : ℝ) : ℝ :=
  (ρ * a - b) * npSign a / √(a ^ 2 - 2 * ρ * a * b + b ^ 2)

open Classical in
/-- `_CBND` with `ρ` already moved off `±1`. -/
noncomputable def bvnAux (a b ρ : ℝ) : ℝ :=
  if Direct a b ρ then flat a b ρ
  else flat a 0 (cbndRho (redRho a b ρ)) + flat b 0 (cbndRho (redRho b a ρ))
    - (1 - npSign a * npSign b) / 4

/-- `_CBND` without recursion. -/
noncomputable def bvn (a b ρ : ℝ) : ℝ := bvnAux a b (cbndRho ρ)

theorem CBND_base (fuel : ℕ) {a b ρ : ℝ} (h : a ≤ 0 ∧ b ≤ 0 ∧ ρ ≤ 0) :
    CBND (fuel + 1) a b ρ = some (quadr a b (cbndRho ρ)) := by
  rw [CBND]
  simp [h.1, h.2.1, (cbndRho_sign ρ).1, h.2.2, quadr]

theorem CBND_direct (fuel : ℕ) {a b ρ : ℝ} (h : Direct a b ρ) :
    CBND (fuel + 2) a b ρ = some (flat a b (cbndRho ρ)) := by
  have s := cbndRho_sign ρ
  have hi := cbndRho_idem ρ
  have hn : cbndRho (-cbndRho ρ) = -cbndRho ρ := by rw [cbndRho_neg, hi]
  rw [CBND, flat]
  simp only [ge_iff_le, s.1, s.2]
  by_cases h1 : a ≤ 0 ∧ b ≤ 0 ∧ ρ ≤ 0
  · simp only [if_pos h1, quadr]
  · by_cases h2 : a ≤ 0 ∧ 0 ≤ b ∧ 0 ≤ ρ
    · rw [if_neg h1, if_neg h1, if_pos h2, if_pos h2, CBND_base, Option.map_some, hn]
      exact ⟨h2.1, by linarith [h2.2.1], by have := s.2.2 h2.2.2; linarith⟩
    · by_cases h3 : 0 ≤ a ∧ b ≤ 0 ∧ 0 ≤ ρ
      · rw [if_neg h1, if_neg h1, if_neg h2, if_neg h2, if_pos h3, if_pos h3, CBND_base, Option.map_some, hn]
        exact ⟨by linarith [h3.1], h3.2.1, by have := s.2.2 h3.2.2; linarith⟩
      · have h4 : 0 ≤ a ∧ 0 ≤ b ∧ ρ ≤ 0 := by
          rcases h with h | h | h | h
          · exact absurd h h1
          · exact absurd h h2
          · exact absurd h h3
          · exact h
        rw [if_neg h1, if_neg h1, if_neg h2, if_neg h2, if_neg h3, if_neg h3, if_pos h4, CBND_base,
          Option.map_some, hi]
        exact ⟨by linarith [h4.1], by linarith [h4.2.1], s.1.2 h4.2.2⟩

theorem direct_zero (a ρ : ℝ) : Direct a 0 ρ := by
  rcases le_total a 0 with h | h <;> rcases le_total ρ 0 with h' | h' <;> simp [Direct, h, h']

theorem direct_rho {a b ρ : ℝ} : Direct a b (cbndRho ρ) ↔ Direct a b ρ := by
  simp only [Direct, ge_iff_le, (cbndRho_sign ρ).1, (cbndRho_sign ρ).2]

theorem not_direct_pos {a b ρ : ℝ} (h : ¬ Direct a b ρ) : 0 < a * b * ρ := by
  simp only [Direct, not_or, not_and, ge_iff_le, not_le] at h
  obtain ⟨h1, h2, h3, h4⟩ := h
  rcases le_total a 0 with ha | ha <;> rcases le_total b 0 with hb | hb
  · have hρ := h1 ha hb
    have ha' : a < 0 := by
      by_contra hc; have : a = 0 := by linarith
      subst this; linarith [h3 le_rfl hb]
    have hb' : b < 0 := by
      by_contra hc; have : b = 0 := by linarith
      subst this; linarith [h2 ha le_rfl]
    exact mul_pos (mul_pos_of_neg_of_neg ha' hb') hρ
  · have hρ := h2 ha hb
    have ha' : a < 0 := by
      by_contra hc; have : a = 0 := by linarith
      subst this; linarith [h4 le_rfl hb]
    have hb' : 0 < b := by
      by_contra hc; have : b = 0 := by linarith
      subst this; linarith [h1 ha le_rfl]
    exact mul_pos_of_neg_of_neg (mul_neg_of_neg_of_pos ha' hb') hρ
  · have hρ := h3 ha hb
    have ha' : 0 < a := by
      by_contra hc; have : a = 0 := by linarith
      subst this; linarith [h1 le_rfl hb]
    have hb' : b < 0 := by
      by_contra hc; have : b = 0 := by linarith
      subst this; linarith [h4 ha le_rfl]
    exact mul_pos_of_neg_of_neg (mul_neg_of_pos_of_neg ha' hb') hρ
  · have hρ := h4 ha hb
    have ha' : 0 < a := by
      by_contra hc; have : a = 0 := by linarith
      subst this; linarith [h2 le_rfl hb]
    have hb' : 0 < b := by
      by_contra hc; have : b = 0 := by linarith
      subst this; linarith [h3 ha le_rfl]
    exact mul_pos (mul_pos ha' hb') hρ

theorem CBND_eq (fuel : ℕ) (a b ρ : ℝ) : CBND (fuel + 3) a b ρ = some (bvn a b ρ) := by
  by_cases h : Direct a b ρ
  · rw [CBND_direct (fuel + 1) h, bvn, bvnAux, if_pos (direct_rho.2 h)]
  · have h' := h
    have s := cbndRho_sign ρ
    simp only [Direct, not_or] at h'
    obtain ⟨h1, h2, h3, h4⟩ := h'
    have hp : 0 ≤ a * b * cbndRho ρ := (not_direct_pos (mt direct_rho.1 h)).le
    rw [CBND]
    simp only [ge_iff_le, s.1, s.2] at h1 h2 h3 h4 ⊢
    rw [if_neg h1, if_neg h2, if_neg h3, if_neg h4, if_pos hp, CBND_direct fuel (direct_zero _ _),
      CBND_direct fuel (direct_zero _ _), bvn, bvnAux, if_neg (mt direct_rho.1 h)]
    simp only [redRho]
    have e : a ^ 2 - 2 * cbndRho ρ * a * b + b ^ 2 = b ^ 2 - 2 * cbndRho ρ * b * a + a ^ 2 := by ring
    rw [e]

theorem flat_symm {a b ρ : ℝ} (_ : Direct a b ρ) : flat a b ρ = flat b a ρ := by
  rw [flat, flat]
  by_cases h1 : a ≤ 0 ∧ b ≤ 0 ∧ ρ ≤ 0
  · rw [if_pos h1, if_pos ⟨h1.2.1, h1.1, h1.2.2⟩, quadr_symm]
  have h1' : ¬ (b ≤ 0 ∧ a ≤ 0 ∧ ρ ≤ 0) := fun k => h1 ⟨k.2.1, k.1, k.2.2⟩
  rw [if_neg h1, if_neg h1']
  by_cases h2 : a ≤ 0 ∧ b ≥ 0 ∧ ρ ≥ 0
  · by_cases h2' : b ≤ 0 ∧ a ≥ 0 ∧ ρ ≥ 0
    · have ha : a = 0 := le_antisymm h2.1 h2'.2.1
      have hb : b = 0 := le_antisymm h2'.1 h2.2.1
      rw [ha, hb]
    · rw [if_pos h2, if_neg h2', if_pos ⟨h2.2.1, h2.1, h2.2.2⟩, quadr_symm]
  · by_cases h3 : a ≥ 0 ∧ b ≤ 0 ∧ ρ ≥ 0
    · rw [if_neg h2, if_pos h3, if_pos ⟨h3.2.1, h3.1, h3.2.2⟩, quadr_symm]
    · have h2' : ¬ (b ≤ 0 ∧ a ≥ 0 ∧ ρ ≥ 0) := fun k => h3 ⟨k.2.1, k.1, k.2.2⟩
      have h3' : ¬ (b ≥ 0 ∧ a ≤ 0 ∧ ρ ≥ 0) := fun k => h2 ⟨k.2.1, k.1, k.2.2⟩
      rw [if_neg h2, if_neg h3, if_neg h2', if_neg h3', quadr_symm, add_comm (CND a)]

theorem direct_symm {a b ρ : ℝ} : Direct a b ρ ↔ Direct b a ρ := by
  simp only [Direct]; tauto

theorem bvn_symm (a b ρ : ℝ) : bvn a b ρ = bvn b a ρ := by
  rw [bvn, bvn, bvnAux, bvnAux]
  by_cases h : Direct a b (cbndRho ρ)
  · rw [if_pos h, if_pos (direct_symm.1 h), flat_symm h]
  · rw [if_neg h, if_neg (mt direct_symm.2 h), mul_comm (npSign a)]
    ring

theorem flat_compl {a b ρ : ℝ} (h : Direct a b ρ) (h0 : ¬ (b = 0 ∧ ρ = 0)) :
    flat a b ρ + flat a (-b) (-ρ) = CND a := by
  -- the two halves, up to exchanging `(b, ρ)` with `(-b, -ρ)`
  have neg : ∀ b ρ : ℝ, ¬ (b = 0 ∧ ρ = 0) → b ≤ 0 → ρ ≤ 0 → a ≤ 0 →
      flat a b ρ = quadr a b ρ ∧ flat a (-b) (-ρ) = CND a - quadr a b ρ := by
    intro b ρ h0 hb hρ ha
    constructor
    · rw [flat, if_pos ⟨ha, hb, hρ⟩]
    · rw [flat, if_neg, if_pos ⟨ha, by linarith, by linarith⟩, neg_neg, neg_neg]
      rintro ⟨_, h2, h3⟩
      exact h0 ⟨by linarith, by linarith⟩
  have pos : ∀ b ρ : ℝ, ¬ (b = 0 ∧ ρ = 0) → b ≤ 0 → 0 ≤ ρ → 0 < a →
      flat a b ρ = CND b - quadr (-a) b (-ρ) ∧
      flat a (-b) (-ρ) = CND a + CND (-b) - 1 + quadr (-a) b (-ρ) := by
    intro b ρ h0 hb hρ ha
    have ha' : ¬ a ≤ 0 := by linarith
    constructor
    · rw [flat, if_neg (fun k => ha' k.1), if_neg (fun k => ha' k.1), if_pos ⟨ha.le, hb, hρ⟩]
    · rw [flat, if_neg (fun k => ha' k.1), if_neg (fun k => ha' k.1), if_neg, neg_neg]
      rintro ⟨_, h2, h3⟩
      exact h0 ⟨by linarith, by linarith⟩
  have h0' : ¬ (-b = 0 ∧ -ρ = 0) := by simpa using h0
  rcases le_or_gt a 0 with ha | ha
  · rcases h with h | h | h | h
    · obtain ⟨e1, e2⟩ := neg b ρ h0 h.2.1 h.2.2 ha
      rw [e1, e2]; ring
    · obtain ⟨e1, e2⟩ := neg (-b) (-ρ) h0' (by linarith [h.2.1]) (by linarith [h.2.2]) ha
      rw [neg_neg, neg_neg] at e2
      rw [e1, e2]; ring
    · -- `a = 0`
      have ha0 : a = 0 := le_antisymm ha h.1
      rcases lt_or_eq_of_le h.2.1 with hb | hb
      · rcases lt_or_eq_of_le h.2.2 with hρ | hρ
        · have e1 : flat a b ρ = CND b - quadr (-a) b (-ρ) := by
            rw [flat, if_neg (fun k => by linarith [k.2.2]), if_neg (fun k => by linarith [k.2.1]), if_pos h]
          have e2 : flat a (-b) (-ρ) = CND a + CND (-b) - 1 + quadr (-a) b (-ρ) := by
            rw [flat, if_neg (fun k => by linarith [k.2.1]), if_neg (fun k => by linarith [k.2.2]),
              if_neg (fun k => by linarith [k.2.1]), neg_neg]
          rw [e1, e2]; linarith [CND_add_neg b]
        · obtain ⟨e1, e2⟩ := neg b ρ h0 hb.le hρ.symm.le ha
          rw [e1, e2]; ring
      · have hρ : 0 < ρ := lt_of_le_of_ne h.2.2 (fun k => h0 ⟨hb, k.symm⟩)
        obtain ⟨e1, e2⟩ := neg (-b) (-ρ) h0' (by linarith) (by linarith) ha
        rw [neg_neg, neg_neg] at e2
        rw [e1, e2]; ring
    · have ha0 : a = 0 := le_antisymm ha h.1
      rcases lt_or_eq_of_le h.2.1 with hb | hb
      · rcases lt_or_eq_of_le h.2.2 with hρ | hρ
        · have e1 : flat a (-b) (-ρ) = CND (-b) - quadr (-a) (-b) ρ := by
            rw [flat, if_neg (fun k => by linarith [k.2.2]), if_neg (fun k => by linarith [k.2.1]),
              if_pos ⟨h.1, by linarith, by linarith⟩, neg_neg]
          have e2 : flat a b ρ = CND a + CND b - 1 + quadr (-a) (-b) ρ := by
            rw [flat, if_neg (fun k => by linarith [k.2.1]), if_neg (fun k => by linarith [k.2.2]),
              if_neg (fun k => by linarith [k.2.1])]
          rw [e1, e2]; linarith [CND_add_neg b]
        · obtain ⟨e1, e2⟩ := neg (-b) (-ρ) h0' (by linarith) (by linarith) ha
          rw [neg_neg, neg_neg] at e2
          rw [e1, e2]; ring
      · have hρ : ρ < 0 := lt_of_le_of_ne h.2.2 (fun k => h0 ⟨hb.symm, k⟩)
        obtain ⟨e1, e2⟩ := neg b ρ h0 (by linarith) hρ.le ha
        rw [e1, e2]; ring
  · rcases h with h | h | h | h
    · linarith [h.1]
    · linarith [h.1]
    · obtain ⟨e1, e2⟩ := pos b ρ h0 h.2.1 h.2.2 ha
      rw [e1, e2]; linarith [CND_add_neg b]
    · obtain ⟨e1, e2⟩ := pos (-b) (-ρ) h0' (by linarith [h.2.1]) (by linarith [h.2.2]) ha
      rw [neg_neg, neg_neg] at e2
      rw [neg_neg] at e1
      rw [e1, e2]; linarith [CND_add_neg b]

theorem direct_compl {a b ρ : ℝ} : Direct a (-b) (-ρ) ↔ Direct a b ρ := by
  simp only [Direct, ge_iff_le, neg_nonneg, neg_nonpos]; tauto

theorem cbndRho_lt {ρ : ℝ} (h : |ρ| ≤ 1) : |cbndRho ρ| < 1 := by
  by_cases h1 : |ρ| = 1
  · unfold cbndRho
    rcases (abs_eq (by norm_num : (0 : ℝ) ≤ 1)).1 h1 with rfl | rfl <;> norm_num [npSign, abs_lt]
  · rw [cbndRho, if_neg h1]
    exact lt_of_le_of_ne h h1

theorem quadForm_pos {a b ρ : ℝ} (h : |ρ| < 1) (hb : b ≠ 0) : 0 < a ^ 2 - 2 * ρ * a * b + b ^ 2 := by
  have h1 : ρ ^ 2 < 1 := by rw [← sq_abs]; nlinarith [abs_nonneg ρ]
  have h2 : 0 < b ^ 2 := by positivity
  nlinarith [sq_nonneg (a - ρ * b)]

theorem bvn_compl {a b ρ : ℝ} (hρ1 : |ρ| ≤ 1) (h : b = cbndRho ρ * a → a = 0 ∧ ρ ≠ 0) :
    bvn a b ρ + bvn a (-b) (-ρ) = CND a := by
  have hρ0 : ∀ {x : ℝ}, cbndRho x = 0 → x = 0 := fun {x} k =>
    le_antisymm ((cbndRho_sign x).1.1 k.le) ((cbndRho_sign x).2.1 k.ge)
  rw [bvn, bvn, cbndRho_neg, bvnAux, bvnAux]
  by_cases hd : Direct a b (cbndRho ρ)
  · rw [if_pos hd, if_pos (direct_compl.2 hd)]
    refine flat_compl hd ?_
    rintro ⟨hb, hρ⟩
    exact (h (by rw [hb, hρ, zero_mul])).2 (hρ0 hρ)
  · rw [if_neg hd, if_neg (mt direct_compl.1 hd)]
    have hp := not_direct_pos hd
    have hab : a * b ≠ 0 := left_ne_zero_of_mul hp.ne'
    have ha : a ≠ 0 := left_ne_zero_of_mul hab
    have hb : b ≠ 0 := right_ne_zero_of_mul hab
    set ρ' := cbndRho ρ with hρ'
    have hne : ρ' * a - b ≠ 0 := fun k => ha (h (by linarith)).1
    have e1 : redRho a (-b) (-ρ') = -redRho a b ρ' := by
      simp only [redRho]
      rw [show a ^ 2 - 2 * -ρ' * a * -b + (-b) ^ 2 = a ^ 2 - 2 * ρ' * a * b + b ^ 2 by ring]
      ring
    have e2 : redRho (-b) a (-ρ') = -redRho b a ρ' := by
      simp only [redRho, npSign_neg]
      rw [show (-b) ^ 2 - 2 * -ρ' * -b * a + a ^ 2 = b ^ 2 - 2 * ρ' * b * a + a ^ 2 by ring]
      ring
    rw [e1, e2, cbndRho_neg, cbndRho_neg, npSign_neg]
    have c2 : flat b 0 (cbndRho (redRho b a ρ')) + flat (-b) 0 (-cbndRho (redRho b a ρ')) = 1 / 2 := by
      rw [flat_symm (direct_zero _ _), flat_symm (direct_zero (-b) _),
        flat_compl (direct_symm.1 (direct_zero _ _)) (fun k => hb k.1), CND_zero]
    have hr : redRho a b ρ' ≠ 0 := by
      have hq := quadForm_pos (a := a) (cbndRho_lt hρ1) hb
      have hs : npSign a ≠ 0 := fun k => by simpa [k] using npSign_mul_self ha
      exact div_ne_zero (mul_ne_zero hne hs) (Real.sqrt_pos.2 hq).ne'
    have c1 : flat a 0 (cbndRho (redRho a b ρ')) + flat a 0 (-cbndRho (redRho a b ρ')) = CND a := by
      have := flat_compl (direct_zero a (cbndRho (redRho a b ρ'))) (fun k => hr (hρ0 k.2))
      rwa [neg_zero] at this
    linarith

end Verif
