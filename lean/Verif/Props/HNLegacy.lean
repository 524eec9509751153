import Verif.Model.HNLegacy
import Mathlib.Data.List.Range

/-!
# C98: the earlier likelihood in `hnGARCH.py`

The function neither returns nor computes a likelihood: its three arrays are one array, so the series passed by the caller is
overwritten by numbers that depend on its first entry only, and the last statement raises. Arithmetic is arbitrary.
-/
namespace Verif.Props
open Verif.HNLegacy

variable {R : Type}

/-- One step of the recursion the shared array goes through: the new variance, then the residual of that variance. -/
def legacyStep (A : Arith R) (lamb omega alpha beta gamma rfr a : R) : R :=
  let s := fun v => A.div A.one (A.add A.one (A.exp (A.neg v)))
  let v := A.store (A.add (A.add (s omega) (A.mul (s alpha) (A.sq (A.sub a (A.mul gamma (A.sqrt a))))))
    (A.mul (s beta) a))
  A.store (A.div (A.sub (A.sub v rfr) (A.mul lamb v)) (A.sqrt v))

theorem put_ok {A : Arith R} {σ : Store R} {p i : ℕ} {v : R} (h : i < (σ p).length) :
    put A σ p i v = .ok (Function.update σ p ((σ p).set i (A.store v))) := if_pos h

theorem get_ok {σ : Store R} {p i : ℕ} {v : R} (h : (σ p)[i]? = some v) : get σ p i = .ok v := by
  simp only [HNLegacy.get, h]

/-- The two statements of the loop body, on one array. -/
theorem legacy_body {A : Arith R} {lamb omega alpha beta gamma rfr : R} {symmetric : Bool} {σ : Store R} {x i : ℕ} {a : R}
    (hi : i + 1 < (σ x).length) (ha : (σ x)[i]? = some a) :
    seq (seq (σ, none) fun σ => run σ (stepH A (par A lamb omega alpha beta gamma symmetric) x x (i + 1) σ))
      (fun σ => run σ (stepZ A (par A lamb omega alpha beta gamma symmetric) rfr x x x (i + 1) σ))
      = (Function.update σ x ((σ x).set (i + 1) (legacyStep A lamb omega alpha beta gamma rfr a)), none) := by
  have hg : ∀ b, (if HN.invert b then gamma else A.zero) = gamma := fun b => by cases b <;> simp [HN.invert]
  simp only [seq, stepH, Nat.add_sub_cancel, get_ok ha, bind, Except.bind, put_ok hi, run]
  set v := A.store (A.add (A.add (par A lamb omega alpha beta gamma symmetric).omega
    (A.mul (par A lamb omega alpha beta gamma symmetric).alpha (A.sq (A.sub a
      (A.mul (par A lamb omega alpha beta gamma symmetric).gam (A.sqrt a))))))
    (A.mul (par A lamb omega alpha beta gamma symmetric).beta a)) with hv
  have hget : get (Function.update σ x ((σ x).set (i + 1) v)) x (i + 1) = .ok v :=
    get_ok (by simp [hi])
  simp only [stepZ, hget, bind, Except.bind]
  rw [put_ok (by simpa using hi)]
  simp only [Function.update_self, Function.update_idem, List.set_set]
  congr 3
  simp only [legacyStep, hv, par, hg, HNLegacy.sigmoid]

/-- **C98.** On a series with at least two entries, starting with `a`, the function raises `TypeError`, and the caller's array
then holds the iterates of `legacyStep` at `a`: no other entry of the series has been used. Other arrays are unchanged. -/
theorem C98_overwrites (A : Arith R) (lamb omega alpha beta gamma rfr : R) (symmetric : Bool) (σ : Store R) (x : ℕ) {a : R}
    {rest : List R} (hx : σ x = a :: rest) (hr : rest ≠ []) :
    llh A x lamb omega alpha beta gamma symmetric rfr σ
      = (Function.update σ x ((List.range (σ x).length).map fun k => (legacyStep A lamb omega alpha beta gamma rfr)^[k] a),
          some .typeError) := by
  set F := legacyStep A lamb omega alpha beta gamma rfr with hF
  set p := par A lamb omega alpha beta gamma symmetric with hp
  set n := (σ x).length with hn
  have hn2 : 2 ≤ n := by
    rw [hn, hx]
    have := List.length_pos_iff.2 hr
    simp only [List.length_cons]; omega
  obtain ⟨v, hput⟩ : ∃ v, put A σ x 1 (A.div (A.add p.omega p.alpha)
      (A.sub (A.sub A.one (A.mul (A.mul p.alpha p.gam) p.gam)) p.beta)) = .ok (Function.update σ x ((σ x).set 1 v)) :=
    ⟨_, put_ok (by omega)⟩
  obtain ⟨w, hZ⟩ : ∃ w, stepZ A p rfr x x x 1 (Function.update σ x ((σ x).set 1 v))
      = .ok (Function.update σ x ((σ x).set 1 w)) := by
    have hget : get (Function.update σ x ((σ x).set 1 v)) x 1 = .ok v :=
      get_ok (by simp [show 1 < (σ x).length by omega])
    simp only [stepZ, hget, bind, Except.bind]
    rw [put_ok (by simp only [Function.update_self, List.length_set]; omega)]
    simp only [Function.update_self, Function.update_idem, List.set_set]
    exact ⟨_, rfl⟩
  have loop : ∀ k, k < n → ∃ l : List R, l.length = n ∧ (∀ j ≤ k, l[j]? = some (F^[j] a)) ∧
      (List.range' 1 k).foldl (fun s i => seq (seq s fun σ => run σ (stepH A p x x i σ))
        fun σ => run σ (stepZ A p rfr x x x i σ)) (Function.update σ x ((σ x).set 1 w), none)
        = (Function.update σ x l, none) := by
    intro k
    induction k with
    | zero =>
      intro _
      refine ⟨(σ x).set 1 w, by simp [hn], fun j hj => ?_, rfl⟩
      obtain rfl : j = 0 := by omega
      simp [hx]
    | succ k ih =>
      intro hk
      obtain ⟨l, hl, hv, hf⟩ := ih (by omega)
      refine ⟨l.set (k + 1) (F (F^[k] a)), by simp [hl], fun j hj => ?_, ?_⟩
      · rcases Nat.lt_or_ge k j with h | h
        · obtain rfl : j = k + 1 := by omega
          rw [List.getElem?_set_self (by omega), Function.iterate_succ_apply']
        · rw [List.getElem?_set_ne (by omega)]
          exact hv j h
      · rw [List.range'_1_concat, List.foldl_append, hf]
        simp only [List.foldl_cons, List.foldl_nil]
        have := legacy_body (A := A) (lamb := lamb) (omega := omega) (alpha := alpha) (beta := beta) (gamma := gamma)
          (rfr := rfr) (symmetric := symmetric) (σ := Function.update σ x l) (x := x) (i := k) (a := F^[k] a)
          (by simp only [Function.update_self]; omega) (by simp only [Function.update_self]; exact hv k le_rfl)
        rw [Nat.add_comm 1 k]
        rw [this]
        simp only [Function.update_self, Function.update_idem]
        rfl
  obtain ⟨l, hl, hv, hf⟩ := loop (n - 1) (by omega)
  have hlist : l = (List.range n).map fun k => F^[k] a := by
    refine List.ext_getElem? fun j => ?_
    rcases Nat.lt_or_ge j n with h | h
    · rw [hv j (by omega)]; simp [h]
    · rw [List.getElem?_eq_none (by omega), List.getElem?_eq_none (by simp; omega)]
  simp only [llh, ← hp, hput, run, seq, hZ]
  have hlen : (Function.update σ x ((σ x).set 1 w) x).length - 1 = n - 1 := by simp [hn]
  simp only [run, seq] at hf
  rw [hlen, hf, hlist]
  simp [bindArgs, paramFitSig]

/-- **C98.** On a series of length 0 or 1 it raises `IndexError` and changes nothing. -/
theorem C98_short (A : Arith R) (lamb omega alpha beta gamma rfr : R) (symmetric : Bool) (σ : Store R) (x : ℕ)
    (hx : (σ x).length < 2) : llh A x lamb omega alpha beta gamma symmetric rfr σ = (σ, some .indexError) := by
  simp only [llh, put, if_neg (show ¬1 < (σ x).length by omega), run, seq]

/-- **C98.** So it never returns, whatever the series, the parameters and the arithmetic … -/
theorem C98_never_returns (A : Arith R) (lamb omega alpha beta gamma rfr : R) (symmetric : Bool) (σ : Store R) (x : ℕ) :
    (llh A x lamb omega alpha beta gamma symmetric rfr σ).2 ≠ none := by
  match hx : σ x with
  | [] => rw [C98_short _ _ _ _ _ _ _ _ _ _ (by simp [hx])]; simp
  | [a] => rw [C98_short _ _ _ _ _ _ _ _ _ _ (by simp [hx])]; simp
  | a :: b :: l => rw [C98_overwrites _ _ _ _ _ _ _ _ _ _ hx (by simp)]; simp

/-- **C98.** … and two series of the same length that agree in their first entry only end up identical; the flag `symmetric` has
no influence either. -/
theorem C98_data_unused (A : Arith R) (lamb omega alpha beta gamma rfr : R) (s s' : Bool) (σ σ' : Store R) (x : ℕ)
    {a : R} {rest rest' : List R} (hx : σ x = a :: rest) (hx' : σ' x = a :: rest') (hl : rest.length = rest'.length)
    (hr : rest ≠ []) :
    (llh A x lamb omega alpha beta gamma s rfr σ).1 x = (llh A x lamb omega alpha beta gamma s' rfr σ').1 x := by
  have hr' : rest' ≠ [] := by
    intro h; rw [h] at hl; exact hr (List.length_eq_zero_iff.1 hl)
  rw [C98_overwrites _ _ _ _ _ _ _ _ _ _ hx hr, C98_overwrites _ _ _ _ _ _ _ _ _ _ hx' hr']
  simp [hx, hx', hl]

/-- Non-vacuous, and the overwriting is real: with the integers as numbers and stub operations, `[1, 5, 7]` becomes `[1, 3, 13]`. -/
theorem C98_example :
    let A : Arith ℤ := ⟨1, 0, (· + ·), (· - ·), (· * ·), fun x _ => x, fun x => -x, fun x => x ^ 2, fun _ => 1,
      fun _ => 0, id⟩
    (llh A 0 0 0 0 0 0 true 0 (fun _ => [1, 5, 7])).1 0 = [1, 3, 13] := by
  intro A
  rw [C98_overwrites A 0 0 0 0 0 0 true (fun _ => [1, 5, 7]) 0 (a := 1) (rest := [5, 7]) rfl (by simp)]
  simp [A, legacyStep, List.range_succ]

end Verif.Props
