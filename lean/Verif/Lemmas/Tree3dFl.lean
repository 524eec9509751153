import Verif.Model.Tree3dFl
import Verif.Lemmas.Tree3d

/-! The rollback of the two-asset lattice over an arbitrary arithmetic computes a backward induction. -/
set_option linter.unusedSectionVars false
namespace Verif
open Py Tree3d

variable {A : Arith} {n : ℕ}

/-- Backward induction with the operations of `A`. -/
structure IsRoundedValue (A : Arith) (pay : ℕ → ℕ → ℕ → ℝ) (am : Bool) (D : ℝ) (n : ℕ) (V : ℕ → ℕ → ℕ → ℝ) : Prop where
  terminal : ∀ j ≤ n, ∀ i ≤ n, V n j i = pay n j i
  back : ∀ m < n, ∀ j ≤ m, ∀ i ≤ m,
    let cont := Tree3dFl.cont A D (V (m + 1) j i) (V (m + 1) (j + 1) i) (V (m + 1) j (i + 1)) (V (m + 1) (j + 1) (i + 1))
    V m j i = if am then max cont (pay m j i) else cont

theorem rollback_fl_ok {pay : ℕ → ℕ → ℕ → Except PyErr ℝ} {P : ℕ → ℕ → ℕ → ℝ} {am : Bool} {D : ℝ}
    {V : ℕ → ℕ → ℕ → ℝ} {M0 : Mat ℝ}
    (hp : am = true → ∀ m < n, ∀ j ≤ m, ∀ i ≤ m, pay m j i = .ok (P m j i))
    (hV : IsRoundedValue A P am D n V) (h0 : Holds n M0 (P n)) :
    ∃ M, Tree3dFl.rollback A pay am D n M0 = .ok M ∧ Holds n M (fun a b => V (max a b) a b) := by
  have outer := foldlM_range_rev_inv (n := n) (s := M0)
    (f := fun M m =>
      (List.range (m + 1)).foldlM (init := M) fun M j =>
        (List.range (m + 1)).foldlM (init := M) fun M i => do
          let a ← M.get j i
          let b ← M.get (j + 1) i
          let c ← M.get j (i + 1)
          let d ← M.get (j + 1) (i + 1)
          let M ← M.set j i (Tree3dFl.cont A D a b c d)
          if am then do
            let x ← M.get j i
            let y ← pay m j i
            M.set j i (max x y)
          else pure M)
    (P := fun m M => Holds n M (fun a b => V (max m (max a b)) a b))
    (h0.congr fun a ha b hb => by rw [max_eq_left (by omega), hV.terminal a ha b hb]) ?_
  · obtain ⟨M, h1, h2⟩ := outer
    exact ⟨M, h1, h2.congr fun a _ b _ => by simp⟩
  · intro m hm M hM
    have mid := foldlM_range_inv (n := m + 1) (s := M)
      (f := fun M j =>
        (List.range (m + 1)).foldlM (init := M) fun M i => do
          let a ← M.get j i
          let b ← M.get (j + 1) i
          let c ← M.get j (i + 1)
          let d ← M.get (j + 1) (i + 1)
          let M ← M.set j i (Tree3dFl.cont A D a b c d)
          if am then do
            let x ← M.get j i
            let y ← pay m j i
            M.set j i (max x y)
          else pure M)
      (P := fun j M => Holds n M (fun a b => if a < j ∧ b ≤ m then V m a b else V (max (m + 1) (max a b)) a b))
      (hM.congr fun a _ b _ => by rw [if_neg (by omega)]) ?_
    · obtain ⟨M', h1, h2⟩ := mid
      refine ⟨M', h1, h2.congr fun a _ b _ => ?_⟩
      by_cases h : a < m + 1 ∧ b ≤ m
      · rw [if_pos h, max_eq_left (by omega)]
      · rw [if_neg h, show max (m + 1) (max a b) = max m (max a b) by omega]
    · intro j hj M hM
      have inner := foldlM_range_inv (n := m + 1) (s := M)
        (f := fun M i => do
          let a ← M.get j i
          let b ← M.get (j + 1) i
          let c ← M.get j (i + 1)
          let d ← M.get (j + 1) (i + 1)
          let M ← M.set j i (Tree3dFl.cont A D a b c d)
          if am then do
            let x ← M.get j i
            let y ← pay m j i
            M.set j i (max x y)
          else pure M)
        (P := fun i M => Holds n M (fun a b =>
          if (a < j ∧ b ≤ m) ∨ (a = j ∧ b < i) then V m a b else V (max (m + 1) (max a b)) a b))
        (hM.congr fun a _ b _ => by simp) ?_
      · obtain ⟨M', h1, h2⟩ := inner
        refine ⟨M', h1, h2.congr fun a _ b _ => ?_⟩
        by_cases h : a < j + 1 ∧ b ≤ m
        · rw [if_pos h, if_pos (by omega)]
        · rw [if_neg h, if_neg (by omega)]
      · intro i hi M hM
        have g1 := hM.get (a := j) (b := i) (by omega) (by omega)
        have g2 := hM.get (a := j + 1) (b := i) (by omega) (by omega)
        have g3 := hM.get (a := j) (b := i + 1) (by omega) (by omega)
        have g4 := hM.get (a := j + 1) (b := i + 1) (by omega) (by omega)
        rw [if_neg (by omega), show max (m + 1) (max j i) = m + 1 by omega] at g1
        rw [if_neg (by omega), show max (m + 1) (max (j + 1) i) = m + 1 by omega] at g2
        rw [if_neg (by omega), show max (m + 1) (max j (i + 1)) = m + 1 by omega] at g3
        rw [if_neg (by omega), show max (m + 1) (max (j + 1) (i + 1)) = m + 1 by omega] at g4
        have hb := hV.back m hm j (by omega) i (by omega)
        simp only at hb
        set cont := Tree3dFl.cont A D (V (m + 1) j i) (V (m + 1) (j + 1) i) (V (m + 1) j (i + 1))
          (V (m + 1) (j + 1) (i + 1)) with hcont
        obtain ⟨M1, s1, k1⟩ := hM.set (a := j) (b := i) (by omega) (by omega) cont
        have fin : ∀ M' : Mat ℝ, Holds n M' (fun x y => if x = j ∧ y = i then V m j i else
            if (x < j ∧ y ≤ m) ∨ (x = j ∧ y < i) then V m x y else V (max (m + 1) (max x y)) x y) →
            Holds n M' (fun a b =>
              if (a < j ∧ b ≤ m) ∨ (a = j ∧ b < i + 1) then V m a b else V (max (m + 1) (max a b)) a b) := by
          intro M' h
          refine h.congr fun a _ b _ => ?_
          by_cases h : a = j ∧ b = i
          · rw [if_pos h, if_pos (by omega), h.1, h.2]
          · rw [if_neg h]
            by_cases h' : (a < j ∧ b ≤ m) ∨ (a = j ∧ b < i)
            · rw [if_pos h', if_pos (by omega)]
            · rw [if_neg h', if_neg (by omega)]
        cases am
        · refine ⟨M1, ?_, fin M1 (k1.congr fun a _ b _ => ?_)⟩
          · simp only [g1, g2, g3, g4, bind, Except.bind]
            rw [s1]; rfl
          · simp only [Bool.false_eq_true, if_false] at hb
            rw [hb]
        · obtain ⟨M2, s2, k2⟩ := k1.set (a := j) (b := i) (by omega) (by omega) (max cont (P m j i))
          refine ⟨M2, ?_, fin M2 (k2.congr fun a _ b _ => ?_)⟩
          · simp only [g1, g2, g3, g4, bind, Except.bind]
            rw [s1]
            have g5 := k1.get (a := j) (b := i) (by omega) (by omega)
            simp only [and_self, if_true] at g5
            simp only [if_true, g5, hp rfl m hm j (by omega) i (by omega)]
            exact s2
          · simp only [if_true] at hb
            rw [hb]
            by_cases h : a = j ∧ b = i
            · rw [if_pos h, if_pos h]
            · rw [if_neg h, if_neg h, if_neg h]

theorem exists_rounded_value (A : Arith) (P : ℕ → ℕ → ℕ → ℝ) (am : Bool) (D : ℝ) (n : ℕ) : ∃ V, IsRoundedValue A P am D n V := by
  let step : ℕ → (ℕ → ℕ → ℝ) → ℕ → ℕ → ℝ := fun m W j i =>
    let cont := Tree3dFl.cont A D (W j i) (W (j + 1) i) (W j (i + 1)) (W (j + 1) (i + 1))
    if am then max cont (P m j i) else cont
  let U : ℕ → ℕ → ℕ → ℝ := fun q => Nat.rec (P n) (fun q W => step (n - q - 1) W) q
  refine ⟨fun m => U (n - m), ?_, ?_⟩
  · intro j _ i _; simp [U]
  · intro m hm j _ i _
    obtain ⟨q, hq⟩ : ∃ q, n - m = q + 1 := ⟨n - m - 1, by omega⟩
    have h1 : n - (m + 1) = q := by omega
    have h2 : n - q - 1 = m := by omega
    simp only [hq, h1]
    show step (n - q - 1) (U q) j i = _
    rw [h2]

theorem calcPrice_fl_ok {pay : ℕ → ℕ → ℕ → Except PyErr ℝ} {P : ℕ → ℕ → ℕ → ℝ} {am : Bool} {D : ℝ}
    {V : ℕ → ℕ → ℕ → ℝ} (hp : ∀ m ≤ n, ∀ j ≤ m, ∀ i ≤ m, pay m j i = .ok (P m j i))
    (hV : IsRoundedValue A P am D n V) : Tree3dFl.calcPrice A pay am D n = .ok (V 0 0 0) := by
  obtain ⟨M, h1, h2⟩ := fillTerminal_ok (pay := pay) (P := P) (n := n) (hp n le_rfl)
  obtain ⟨M', h3, h4⟩ := rollback_fl_ok (pay := pay) (fun _ m hm => hp m hm.le) hV h2
  simp only [Tree3dFl.calcPrice, h1, h3, bind, Except.bind]
  rw [h4.get (by omega) (by omega)]; simp

end Verif
