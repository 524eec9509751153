import Verif.Model.Tree3d
import Verif.Spec.TwoAsset
import Verif.Lemmas.Tree
import Mathlib.Tactic.Linarith
import Mathlib.Tactic.Ring
import Mathlib.Tactic.FieldSimp
import Mathlib.Tactic.Positivity
import Mathlib.Algebra.BigOperators.Field
import Mathlib.Data.Nat.Choose.Sum

/-! The in-place triple loop computes the two-asset backward induction. -/
set_option linter.unusedSectionVars false
namespace Verif
open Py Spec.TwoAsset Tree3d

theorem foldlM_range_inv {σ : Type} {f : σ → ℕ → Except PyErr σ} {P : ℕ → σ → Prop} {n : ℕ} {s : σ}
    (h0 : P 0 s) (hs : ∀ k < n, ∀ s, P k s → ∃ s', f s k = .ok s' ∧ P (k + 1) s') :
    ∃ s', (List.range n).foldlM (init := s) f = .ok s' ∧ P n s' := by
  induction n with
  | zero => exact ⟨s, by simp [pure, Except.pure], h0⟩
  | succ n ih =>
    obtain ⟨s1, h1, p1⟩ := ih (fun k hk => hs k (by omega))
    obtain ⟨s2, h2, p2⟩ := hs n (by omega) s1 p1
    refine ⟨s2, ?_, p2⟩
    rw [List.range_succ, List.foldlM_append, h1]
    simp [bind, Except.bind, h2, pure, Except.pure]

theorem foldlM_range_rev_inv {σ : Type} {f : σ → ℕ → Except PyErr σ} {P : ℕ → σ → Prop} {n : ℕ} {s : σ}
    (h0 : P n s) (hs : ∀ k < n, ∀ s, P (k + 1) s → ∃ s', f s k = .ok s' ∧ P k s') :
    ∃ s', (List.range n).reverse.foldlM (init := s) f = .ok s' ∧ P 0 s' := by
  induction n generalizing s with
  | zero => exact ⟨s, by simp [pure, Except.pure], h0⟩
  | succ n ih =>
    obtain ⟨s1, h1, p1⟩ := hs n (by omega) s h0
    obtain ⟨s2, h2, p2⟩ := ih p1 (fun k hk => hs k (by omega))
    refine ⟨s2, ?_, p2⟩
    rw [List.range_succ, List.reverse_append, List.reverse_singleton, List.singleton_append,
      List.foldlM_cons, h1]
    exact h2

variable {R : Type} [Field R] [LinearOrder R] [IsStrictOrderedRing R]

/-- An `(n+2)×(n+2)` array with the given content on `0…n`, zero in the last row and column. -/
structure Holds (n : ℕ) (M : Mat R) (f : ℕ → ℕ → R) : Prop where
  rows : M.rows = n + 2
  cols : M.cols = n + 2
  entry : ∀ a ≤ n, ∀ b ≤ n, M.entry a b = f a b
  border : ∀ a b, n < a ∨ n < b → M.entry a b = 0

variable {n : ℕ} {M : Mat R} {f : ℕ → ℕ → R}

theorem Holds.get (h : Holds n M f) {a b : ℕ} (ha : a ≤ n) (hb : b ≤ n) : M.get a b = .ok (f a b) := by
  rw [Mat.get, if_pos ⟨by rw [h.rows]; omega, by rw [h.cols]; omega⟩, h.entry a ha b hb]

theorem Holds.set (h : Holds n M f) {a b : ℕ} (ha : a ≤ n) (hb : b ≤ n) (v : R) :
    ∃ M', M.set a b v = .ok M' ∧ Holds n M' (fun x y => if x = a ∧ y = b then v else f x y) := by
  refine ⟨{ M with entry := fun x y => if x = a ∧ y = b then v else M.entry x y },
    by rw [Mat.set, if_pos ⟨by rw [h.rows]; omega, by rw [h.cols]; omega⟩], h.rows, h.cols, ?_, ?_⟩
  · intro x hx y hy
    simp only
    split
    · rfl
    · exact h.entry x hx y hy
  · intro x y hxy
    simp only
    rw [if_neg (by omega)]
    exact h.border x y hxy

theorem Holds.congr {g : ℕ → ℕ → R} (h : Holds n M f) (hfg : ∀ a ≤ n, ∀ b ≤ n, f a b = g a b) :
    Holds n M g :=
  ⟨h.rows, h.cols, fun a ha b hb => (h.entry a ha b hb).trans (hfg a ha b hb), h.border⟩

theorem fillTerminal_ok {pay : ℕ → ℕ → ℕ → Except PyErr R} {P : ℕ → ℕ → ℕ → R}
    (hp : ∀ j ≤ n, ∀ i ≤ n, pay n j i = .ok (P n j i)) :
    ∃ M, fillTerminal pay n = .ok M ∧ Holds n M (P n) := by
  have outer := foldlM_range_inv (n := n + 1) (s := Mat.zeros (n + 2) (n + 2))
    (f := fun M j => (List.range (n + 1)).foldlM (init := M) fun M i => do
      let v ← pay n j i
      M.set j i v)
    (P := fun j M => Holds n M (fun a b => if a < j then P n a b else 0))
    ⟨rfl, rfl, by intro a _ b _; simp [Mat.zeros], by intro a b _; simp [Mat.zeros]⟩ ?_
  · obtain ⟨M, h1, h2⟩ := outer
    exact ⟨M, h1, h2.congr fun a ha b _ => if_pos (by omega)⟩
  · intro j hj M hM
    have inner := foldlM_range_inv (n := n + 1) (s := M)
      (f := fun M i => do
        let v ← pay n j i
        M.set j i v)
      (P := fun i M => Holds n M (fun a b => if a < j ∨ (a = j ∧ b < i) then P n a b else 0))
      (hM.congr fun a _ b _ => by simp) ?_
    · obtain ⟨M', h1, h2⟩ := inner
      refine ⟨M', h1, h2.congr fun a _ b hb => ?_⟩
      by_cases h : a < j + 1
      · rw [if_pos h, if_pos (by omega)]
      · rw [if_neg h, if_neg (by omega)]
    · intro i hi M hM
      obtain ⟨M', h1, h2⟩ := hM.set (a := j) (b := i) (by omega) (by omega) (P n j i)
      refine ⟨M', ?_, h2.congr fun a _ b _ => ?_⟩
      · simp only [hp j (by omega) i (by omega), bind, Except.bind]; exact h1
      · by_cases h : a = j ∧ b = i
        · rw [if_pos h, if_pos (by omega), h.1, h.2]
        · rw [if_neg h]
          by_cases h' : a < j ∨ (a = j ∧ b < i)
          · rw [if_pos h', if_pos (by omega)]
          · rw [if_neg h', if_neg (by omega)]

theorem rollback_ok {pay : ℕ → ℕ → ℕ → Except PyErr R} {P : ℕ → ℕ → ℕ → R} {am : Bool} {D : R}
    {V : ℕ → ℕ → ℕ → R} {M0 : Mat R}
    (hp : am = true → ∀ m < n, ∀ j ≤ m, ∀ i ≤ m, pay m j i = .ok (P m j i))
    (hV : IsValue P am D n V) (h0 : Holds n M0 (P n)) :
    ∃ M, Tree3d.rollback pay am D n M0 = .ok M ∧ Holds n M (fun a b => V (max a b) a b) := by
  have outer := foldlM_range_rev_inv (n := n) (s := M0)
    (f := fun M m =>
      (List.range (m + 1)).foldlM (init := M) fun M j =>
        (List.range (m + 1)).foldlM (init := M) fun M i => do
          let a ← M.get j i
          let b ← M.get (j + 1) i
          let c ← M.get j (i + 1)
          let d ← M.get (j + 1) (i + 1)
          let M ← M.set j i (1 / 4 * (a + b + c + d) * D)
          if am then do
            let x ← M.get j i
            let y ← pay m j i
            M.set j i (max x y)
          else pure M)
    (P := fun m M => Holds n M (fun a b => V (max m (max a b)) a b))
    (h0.congr fun a ha b hb => by rw [max_eq_left (by omega), hV.terminal a ha b hb]) ?_
  · obtain ⟨M, h1, h2⟩ := outer
    exact ⟨M, h1, h2.congr fun a _ b _ => by simp⟩
  · intro m hm M hM
    have mid := foldlM_range_inv (n := m + 1) (s := M)
      (f := fun M j =>
        (List.range (m + 1)).foldlM (init := M) fun M i => do
          let a ← M.get j i
          let b ← M.get (j + 1) i
          let c ← M.get j (i + 1)
          let d ← M.get (j + 1) (i + 1)
          let M ← M.set j i (1 / 4 * (a + b + c + d) * D)
          if am then do
            let x ← M.get j i
            let y ← pay m j i
            M.set j i (max x y)
          else pure M)
      (P := fun j M => Holds n M (fun a b => if a < j ∧ b ≤ m then V m a b else V (max (m + 1) (max a b)) a b))
      (hM.congr fun a _ b _ => by rw [if_neg (by omega)]) ?_
    · obtain ⟨M', h1, h2⟩ := mid
      refine ⟨M', h1, h2.congr fun a _ b _ => ?_⟩
      by_cases h : a < m + 1 ∧ b ≤ m
      · rw [if_pos h, max_eq_left (by omega)]
      · rw [if_neg h, show max (m + 1) (max a b) = max m (max a b) by omega]
    · intro j hj M hM
      have inner := foldlM_range_inv (n := m + 1) (s := M)
        (f := fun M i => do
          let a ← M.get j i
          let b ← M.get (j + 1) i
          let c ← M.get j (i + 1)
          let d ← M.get (j + 1) (i + 1)
          let M ← M.set j i (1 / 4 * (a + b + c + d) * D)
          if am then do
            let x ← M.get j i
            let y ← pay m j i
            M.set j i (max x y)
          else pure M)
        (P := fun i M => Holds n M (fun a b =>
          if (a < j ∧ b ≤ m) ∨ (a = j ∧ b < i) then V m a b else V (max (m + 1) (max a b)) a b))
        (hM.congr fun a _ b _ => by simp) ?_
      · obtain ⟨M', h1, h2⟩ := inner
        refine ⟨M', h1, h2.congr fun a _ b _ => ?_⟩
        by_cases h : a < j + 1 ∧ b ≤ m
        · rw [if_pos h, if_pos (by omega)]
        · rw [if_neg h, if_neg (by omega)]
      · intro i hi M hM
        have g1 := hM.get (a := j) (b := i) (by omega) (by omega)
        have g2 := hM.get (a := j + 1) (b := i) (by omega) (by omega)
        have g3 := hM.get (a := j) (b := i + 1) (by omega) (by omega)
        have g4 := hM.get (a := j + 1) (b := i + 1) (by omega) (by omega)
        rw [if_neg (by omega), show max (m + 1) (max j i) = m + 1 by omega] at g1
        rw [if_neg (by omega), show max (m + 1) (max (j + 1) i) = m + 1 by omega] at g2
        rw [if_neg (by omega), show max (m + 1) (max j (i + 1)) = m + 1 by omega] at g3
        rw [if_neg (by omega), show max (m + 1) (max (j + 1) (i + 1)) = m + 1 by omega] at g4
        have hb := hV.back m hm j (by omega) i (by omega)
        simp only at hb
        set cont := 1 / 4 * (V (m + 1) j i + V (m + 1) (j + 1) i + V (m + 1) j (i + 1)
          + V (m + 1) (j + 1) (i + 1)) * D with hcont
        rw [show D * ((V (m + 1) j i + V (m + 1) (j + 1) i + V (m + 1) j (i + 1)
          + V (m + 1) (j + 1) (i + 1)) / 4) = cont by rw [hcont]; ring] at hb
        obtain ⟨M1, s1, k1⟩ := hM.set (a := j) (b := i) (by omega) (by omega) cont
        have fin : ∀ M' : Mat R, Holds n M' (fun x y => if x = j ∧ y = i then V m j i else
            if (x < j ∧ y ≤ m) ∨ (x = j ∧ y < i) then V m x y else V (max (m + 1) (max x y)) x y) →
            Holds n M' (fun a b =>
              if (a < j ∧ b ≤ m) ∨ (a = j ∧ b < i + 1) then V m a b else V (max (m + 1) (max a b)) a b) := by
          intro M' h
          refine h.congr fun a _ b _ => ?_
          by_cases h : a = j ∧ b = i
          · rw [if_pos h, if_pos (by omega), h.1, h.2]
          · rw [if_neg h]
            by_cases h' : (a < j ∧ b ≤ m) ∨ (a = j ∧ b < i)
            · rw [if_pos h', if_pos (by omega)]
            · rw [if_neg h', if_neg (by omega)]
        cases am
        · refine ⟨M1, ?_, fin M1 (k1.congr fun a _ b _ => ?_)⟩
          · simp only [g1, g2, g3, g4, bind, Except.bind]
            rw [s1]; rfl
          · simp only [Bool.false_eq_true, if_false] at hb
            rw [hb]
        · obtain ⟨M2, s2, k2⟩ := k1.set (a := j) (b := i) (by omega) (by omega) (max cont (P m j i))
          refine ⟨M2, ?_, fin M2 (k2.congr fun a _ b _ => ?_)⟩
          · simp only [g1, g2, g3, g4, bind, Except.bind]
            rw [s1]
            have g5 := k1.get (a := j) (b := i) (by omega) (by omega)
            simp only [and_self, if_true] at g5
            simp only [if_true, g5, hp rfl m hm j (by omega) i (by omega)]
            exact s2
          · simp only [if_true] at hb
            rw [hb]
            by_cases h : a = j ∧ b = i
            · rw [if_pos h, if_pos h]
            · rw [if_neg h, if_neg h, if_neg h]

theorem exists_value (P : ℕ → ℕ → ℕ → R) (am : Bool) (D : R) (n : ℕ) : ∃ V, IsValue P am D n V := by
  let step : ℕ → (ℕ → ℕ → R) → ℕ → ℕ → R := fun m W j i =>
    let cont := D * ((W j i + W (j + 1) i + W j (i + 1) + W (j + 1) (i + 1)) / 4)
    if am then max cont (P m j i) else cont
  let U : ℕ → ℕ → ℕ → R := fun q => Nat.rec (P n) (fun q W => step (n - q - 1) W) q
  refine ⟨fun m => U (n - m), ?_, ?_⟩
  · intro j _ i _; simp [U]
  · intro m hm j _ i _
    obtain ⟨q, hq⟩ : ∃ q, n - m = q + 1 := ⟨n - m - 1, by omega⟩
    have h1 : n - (m + 1) = q := by omega
    have h2 : n - q - 1 = m := by omega
    simp only [hq, h1]
    show step (n - q - 1) (U q) j i = _
    rw [h2]

theorem calcTree_ok {pay : ℕ → ℕ → ℕ → Except PyErr R} {P : ℕ → ℕ → ℕ → R} {am : Bool} {D : R}
    {V : ℕ → ℕ → ℕ → R} (hp : ∀ m ≤ n, ∀ j ≤ m, ∀ i ≤ m, pay m j i = .ok (P m j i))
    (hV : IsValue P am D n V) :
    ∃ M, calcTree pay am D n = .ok M ∧ Holds n M (fun a b => V (max a b) a b) := by
  obtain ⟨M, h1, h2⟩ := fillTerminal_ok (pay := pay) (P := P) (n := n) (hp n le_rfl)
  obtain ⟨M', h3, h4⟩ := rollback_ok (pay := pay) (fun _ m hm => hp m hm.le) hV h2
  exact ⟨M', by simp [calcTree, h1, h3, bind, Except.bind], h4⟩

theorem calcPrice_ok {pay : ℕ → ℕ → ℕ → Except PyErr R} {P : ℕ → ℕ → ℕ → R} {am : Bool} {D : R}
    {V : ℕ → ℕ → ℕ → R} (hp : ∀ m ≤ n, ∀ j ≤ m, ∀ i ≤ m, pay m j i = .ok (P m j i))
    (hV : IsValue P am D n V) : calcPrice pay am D n = .ok (V 0 0 0) := by
  obtain ⟨M, h1, h2⟩ := calcTree_ok hp hV
  simp only [calcPrice, h1, bind, Except.bind]
  rw [h2.get (by omega) (by omega)]; simp

end Verif

namespace Verif
open Py Spec.TwoAsset Tree3d
variable {R : Type} [Field R] [LinearOrder R] [IsStrictOrderedRing R]

/-! ### Values -/

theorem sum_choose_step (k : ℕ) (g : ℕ → R) :
    ∑ j ∈ Finset.range (k + 1 + 1), ((k + 1).choose j : R) * g j
      = ∑ j ∈ Finset.range (k + 1), (k.choose j : R) * (g j + g (j + 1)) := by
  have := Finset.sum_choose_succ_mul (fun i _ => g i) k (R := R)
  rw [this, ← Finset.sum_add_distrib]
  refine Finset.sum_congr rfl fun i _ => ?_
  ring

theorem average_succ (D : R) (k : ℕ) (f : ℕ → ℕ → R) :
    average D (k + 1) f = D * ((average D k f + average D k (fun j i => f (j + 1) i)
      + average D k (fun j i => f j (i + 1)) + average D k (fun j i => f (j + 1) (i + 1))) / 4) := by
  unfold average
  have h1 : ∑ j ∈ Finset.range (k + 1 + 1), ∑ i ∈ Finset.range (k + 1 + 1),
      ((k + 1).choose j : R) * ((k + 1).choose i : R) * f j i
      = ∑ j ∈ Finset.range (k + 1 + 1), ((k + 1).choose j : R) * ∑ i ∈ Finset.range (k + 1),
        (k.choose i : R) * (f j i + f j (i + 1)) := by
    refine Finset.sum_congr rfl fun j _ => ?_
    rw [← sum_choose_step, Finset.mul_sum]
    refine Finset.sum_congr rfl fun i _ => ?_
    ring
  rw [h1, sum_choose_step]
  have h2 : ∑ j ∈ Finset.range (k + 1), (k.choose j : R) *
      (∑ i ∈ Finset.range (k + 1), (k.choose i : R) * (f j i + f j (i + 1))
        + ∑ i ∈ Finset.range (k + 1), (k.choose i : R) * (f (j + 1) i + f (j + 1) (i + 1)))
      = (∑ j ∈ Finset.range (k + 1), ∑ i ∈ Finset.range (k + 1), (k.choose j : R) * (k.choose i : R) * f j i)
      + (∑ j ∈ Finset.range (k + 1), ∑ i ∈ Finset.range (k + 1), (k.choose j : R) * (k.choose i : R) * f (j + 1) i)
      + (∑ j ∈ Finset.range (k + 1), ∑ i ∈ Finset.range (k + 1), (k.choose j : R) * (k.choose i : R) * f j (i + 1))
      + (∑ j ∈ Finset.range (k + 1), ∑ i ∈ Finset.range (k + 1),
          (k.choose j : R) * (k.choose i : R) * f (j + 1) (i + 1)) := by
    simp only [← Finset.sum_add_distrib, Finset.mul_sum]
    refine Finset.sum_congr rfl fun j _ => Finset.sum_congr rfl fun i _ => ?_
    ring
  rw [h2]
  field_simp
  ring

theorem average_sub (D : R) (n : ℕ) (f g : ℕ → ℕ → R) :
    average D n f - average D n g = average D n (fun j i => f j i - g j i) := by
  unfold average
  rw [← sub_div, ← mul_sub, ← Finset.sum_sub_distrib]
  congr 2
  refine Finset.sum_congr rfl fun j _ => ?_
  rw [← Finset.sum_sub_distrib]
  refine Finset.sum_congr rfl fun i _ => ?_
  ring

theorem average_add (D : R) (n : ℕ) (f g : ℕ → ℕ → R) :
    average D n f + average D n g = average D n (fun j i => f j i + g j i) := by
  unfold average
  rw [← add_div, ← mul_add, ← Finset.sum_add_distrib]
  congr 2
  refine Finset.sum_congr rfl fun j _ => ?_
  rw [← Finset.sum_add_distrib]
  refine Finset.sum_congr rfl fun i _ => ?_
  ring

theorem average_congr (D : R) {n : ℕ} {f g : ℕ → ℕ → R} (h : ∀ j ≤ n, ∀ i ≤ n, f j i = g j i) :
    average D n f = average D n g := by
  unfold average
  congr 2
  refine Finset.sum_congr rfl fun j hj => Finset.sum_congr rfl fun i hi => ?_
  rw [h j (by have := Finset.mem_range.1 hj; omega) i (by have := Finset.mem_range.1 hi; omega)]

/-- Product functions separate. -/
theorem average_mul (D : R) (n : ℕ) (f g : ℕ → R) :
    average D n (fun j i => f j * g i) = D ^ n * ((∑ j ∈ Finset.range (n + 1), (n.choose j : R) * f j) / 2 ^ n)
      * ((∑ j ∈ Finset.range (n + 1), (n.choose j : R) * g j) / 2 ^ n) := by
  unfold average
  have : ∑ j ∈ Finset.range (n + 1), ∑ i ∈ Finset.range (n + 1), (n.choose j : R) * (n.choose i : R) * (f j * g i)
      = (∑ j ∈ Finset.range (n + 1), (n.choose j : R) * f j)
        * (∑ j ∈ Finset.range (n + 1), (n.choose j : R) * g j) := by
    rw [Finset.sum_mul_sum]
    refine Finset.sum_congr rfl fun j _ => Finset.sum_congr rfl fun i _ => ?_
    ring
  rw [this, show (4 : R) ^ n = 2 ^ n * 2 ^ n by rw [← mul_pow]; norm_num]
  field_simp

theorem sum_choose_one (n : ℕ) : (∑ j ∈ Finset.range (n + 1), (n.choose j : R) * 1) / 2 ^ n = 1 := by
  have h : (∑ j ∈ Finset.range (n + 1), (n.choose j : R) * 1) = 2 ^ n := by
    simp only [mul_one]
    exact_mod_cast Nat.sum_range_choose n
  rw [h]; exact div_self (by positivity)

/-- A function of the first factor only. -/
theorem average_fst (D : R) (n : ℕ) (f : ℕ → R) :
    average D n (fun j _ => f j) = Spec.binomialExpectation D (1 / 2) n f := by
  have := average_mul D n f (fun _ => 1)
  simp only [mul_one] at this
  rw [this]
  have h1 := sum_choose_one (R := R) n
  simp only [mul_one] at h1
  rw [h1, mul_one]
  unfold Spec.binomialExpectation
  rw [Finset.sum_div]
  congr 1
  refine Finset.sum_congr rfl fun k hk => ?_
  have hk' : k ≤ n := by have := Finset.mem_range.1 hk; omega
  rw [show (1 : R) - 1 / 2 = 1 / 2 by norm_num]
  rw [mul_assoc _ ((1 / 2 : R) ^ k), ← pow_add, Nat.add_sub_cancel' hk', one_div, inv_pow]
  field_simp

theorem average_const (D : R) (n : ℕ) (c : R) : average D n (fun _ _ => c) = D ^ n * c := by
  have := average_mul D n (fun _ => (1 : R)) (fun _ => 1)
  rw [sum_choose_one, mul_one, mul_one] at this
  simp only [mul_one] at this
  have h2 : average D n (fun _ _ => c) = c * average D n (fun _ _ => (1 : R)) := by
    unfold average
    have h3 : ∑ j ∈ Finset.range (n + 1), ∑ i ∈ Finset.range (n + 1), (n.choose j : R) * (n.choose i : R) * c
        = c * ∑ j ∈ Finset.range (n + 1), ∑ i ∈ Finset.range (n + 1), (n.choose j : R) * (n.choose i : R) * 1 := by
      simp only [Finset.mul_sum]
      exact Finset.sum_congr rfl fun j _ => Finset.sum_congr rfl fun i _ => by ring
    rw [h3]; ring
  rw [h2, this, mul_comm]

/-- Average over all pairs of up-move sets: the grouped form is the plain mean over `4ⁿ` outcomes. -/
theorem average_paths (D : R) (n : ℕ) (f : ℕ → ℕ → R) :
    average D n f = D ^ n * (∑ A ∈ (Finset.range n).powerset, ∑ B ∈ (Finset.range n).powerset,
      f A.card B.card) / 4 ^ n := by
  unfold average
  congr 2
  rw [Finset.sum_powerset_apply_card (fun a => ∑ B ∈ (Finset.range n).powerset, f a B.card) (x := Finset.range n)]
  rw [Finset.card_range]
  refine Finset.sum_congr rfl fun j _ => ?_
  rw [Finset.sum_powerset_apply_card (fun b => f j b) (x := Finset.range n), Finset.card_range, nsmul_eq_mul,
    Finset.mul_sum]
  refine Finset.sum_congr rfl fun i _ => ?_
  rw [nsmul_eq_mul]; ring

variable {P P' : ℕ → ℕ → ℕ → R} {D : R} {n : ℕ} {V V' E : ℕ → ℕ → ℕ → R} {am : Bool}

theorem value_european (hV : IsValue P false D n V) :
    ∀ m ≤ n, ∀ j ≤ m, ∀ i ≤ m, V m j i = average D (n - m) (fun a b => P n (j + a) (i + b)) := by
  refine level_induction ?_ ?_
  · intro j hj i hi
    rw [hV.terminal j hj i hi]; simp [average]
  · intro m hm ih j hj i hi
    obtain ⟨k, hk⟩ : ∃ k, n - m = k + 1 := ⟨n - m - 1, by omega⟩
    have hk' : n - (m + 1) = k := by omega
    have hb := hV.back m hm j hj i hi
    simp only [Bool.false_eq_true, if_false] at hb
    rw [hb, hk, average_succ, ih _ (by omega) _ (by omega), ih _ (by omega) _ (by omega),
      ih _ (by omega) _ (by omega), ih _ (by omega) _ (by omega), hk']
    simp only [Nat.add_assoc, Nat.add_comm 1]

theorem value_mono (hV : IsValue P am D n V) (hV' : IsValue P' am D n V') (hD : 0 ≤ D)
    (hP : ∀ m ≤ n, ∀ j ≤ m, ∀ i ≤ m, P m j i ≤ P' m j i) :
    ∀ m ≤ n, ∀ j ≤ m, ∀ i ≤ m, V m j i ≤ V' m j i := by
  refine level_induction ?_ ?_
  · intro j hj i hi
    rw [hV.terminal j hj i hi, hV'.terminal j hj i hi]; exact hP n le_rfl j hj i hi
  · intro m hm ih j hj i hi
    have hb := hV.back m hm j hj i hi
    have hb' := hV'.back m hm j hj i hi
    simp only at hb hb'
    have h1 := ih j (by omega) i (by omega)
    have h2 := ih (j + 1) (by omega) i (by omega)
    have h3 := ih j (by omega) (i + 1) (by omega)
    have h4 := ih (j + 1) (by omega) (i + 1) (by omega)
    have hc := mul_le_mul_of_nonneg_left (show (V (m + 1) j i + V (m + 1) (j + 1) i + V (m + 1) j (i + 1)
      + V (m + 1) (j + 1) (i + 1)) / 4 ≤ (V' (m + 1) j i + V' (m + 1) (j + 1) i + V' (m + 1) j (i + 1)
      + V' (m + 1) (j + 1) (i + 1)) / 4 by linarith) hD
    rw [hb, hb']
    split
    · exact max_le_max hc (hP m hm.le j hj i hi)
    · exact hc

theorem value_american_ge (hV : IsValue P true D n V) (hE : IsValue P false D n E) (hD : 0 ≤ D) :
    ∀ m ≤ n, ∀ j ≤ m, ∀ i ≤ m, E m j i ≤ V m j i := by
  refine level_induction ?_ ?_
  · intro j hj i hi
    rw [hV.terminal j hj i hi, hE.terminal j hj i hi]
  · intro m hm ih j hj i hi
    have hb := hV.back m hm j hj i hi
    have hb' := hE.back m hm j hj i hi
    simp only [if_true, Bool.false_eq_true, if_false] at hb hb'
    have h1 := ih j (by omega) i (by omega)
    have h2 := ih (j + 1) (by omega) i (by omega)
    have h3 := ih j (by omega) (i + 1) (by omega)
    have h4 := ih (j + 1) (by omega) (i + 1) (by omega)
    have hc := mul_le_mul_of_nonneg_left (show (E (m + 1) j i + E (m + 1) (j + 1) i + E (m + 1) j (i + 1)
      + E (m + 1) (j + 1) (i + 1)) / 4 ≤ (V (m + 1) j i + V (m + 1) (j + 1) i + V (m + 1) j (i + 1)
      + V (m + 1) (j + 1) (i + 1)) / 4 by linarith) hD
    rw [hb, hb']
    exact hc.trans (le_max_left _ _)

theorem value_american_ge_pay (hV : IsValue P true D n V) :
    ∀ m ≤ n, ∀ j ≤ m, ∀ i ≤ m, P m j i ≤ V m j i := by
  intro m hm j hj i hi
  rcases Nat.lt_or_eq_of_le hm with h | rfl
  · have hb := hV.back m h j hj i hi
    simp only [if_true] at hb
    rw [hb]; exact le_max_right _ _
  · rw [hV.terminal j hj i hi]

end Verif
