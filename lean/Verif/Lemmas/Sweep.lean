import Verif.Model.Tree

/-! In-place rollback loops as backward induction. -/
namespace Verif
open Py

variable {R : Type}

theorem getI_ok {a : List R} {i : ℕ} {x : R} (h : a[i]? = some x) : getI a i = .ok x := by
  simp [getI, h]

theorem setI_ok {a : List R} {i : ℕ} {x : R} (h : i < a.length) : setI a i x = .ok (a.set i x) := by
  simp [setI, h]

/-- One sweep `for i in range(m): a[i] = cell(i, a)` in place, where `cell i` only looks at positions
`≥ i` (not yet overwritten). -/
theorem sweep (cell : ℕ → List R → Except PyErr R) (m : ℕ) (ov tr : List R) (new : ℕ → R)
    (hm : m ≤ ov.length)
    (hcell : ∀ i < m, ∀ l : List R, l.length = ov.length → (∀ k, i ≤ k → l[k]? = ov[k]?) →
      cell i l = .ok (new i)) :
    (List.range m).foldlM (init := (ov, tr)) (fun st i => do
      let v ← cell i st.1
      let ov' ← setI st.1 i v
      let x ← getI ov' i
      return (ov', st.2 ++ [x]) : List R × List R → ℕ → Except PyErr (List R × List R))
    = .ok ((List.range m).map new ++ ov.drop m, tr ++ (List.range m).map new) := by
  induction m with
  | zero => simp [pure, Except.pure]
  | succ m ih =>
    rw [List.range_succ, List.foldlM_append, ih (by omega) (fun i hi => hcell i (by omega))]
    have hlen : ((List.range m).map new ++ ov.drop m).length = ov.length := by
      simp; omega
    have hc := hcell m (by omega) ((List.range m).map new ++ ov.drop m) hlen (by
      intro k hk
      rw [List.getElem?_append_right (by simpa using hk)]
      simp [List.getElem?_drop, Nat.add_sub_cancel' hk])
    have hset : ((List.range m).map new ++ ov.drop m).set m (new m)
        = (List.range m).map new ++ new m :: ov.drop (m + 1) := by
      rw [List.set_append_right _ _ (by simp)]
      simp only [List.length_map, List.length_range, Nat.sub_self]
      rw [List.drop_eq_getElem_cons (by omega : m < ov.length)]
      rfl
    simp only [bind, Except.bind, List.foldlM_cons, List.foldlM_nil, hc]
    rw [setI_ok (by omega), hset]
    simp only
    rw [getI_ok (x := new m) (by simp)]
    simp [pure, Except.pure, List.map_append]

/-- The whole rollback: levels `j-1, …, 0`, each preceded by appending `pad` zeros to `tr`. -/
theorem rollback [Zero R] (cell : ℕ → ℕ → List R → Except PyErr R) (w pad : ℕ → ℕ) (V : ℕ → ℕ → R)
    (N : ℕ) (j : ℕ) (ov tr : List R) (hlen : ov.length = N)
    (hw : ∀ i < j, w i ≤ N)
    (hov : ∀ k < w j, ov[k]? = some (V j k))
    (hcell : ∀ q < j, ∀ i < w q, ∀ l : List R, l.length = N →
      (∀ k, i ≤ k → k < w (q + 1) → l[k]? = some (V (q + 1) k)) → cell q i l = .ok (V q i)) :
    ∃ ov' tr', (List.range j).reverse.foldlM (init := (ov, tr)) (fun st q =>
        (List.range (w q)).foldlM (init := (st.1, st.2 ++ List.replicate (pad q) 0)) (fun st i => do
          let v ← cell q i st.1
          let ov' ← setI st.1 i v
          let x ← getI ov' i
          return (ov', st.2 ++ [x])) : List R × List R → ℕ → Except PyErr (List R × List R))
      = .ok (ov', tr') ∧ ov'.length = N ∧ (∀ k < w 0, ov'[k]? = some (V 0 k)) ∧
      tr'.reverse = (List.range j).flatMap (fun q => ((List.range (w q)).map (V q)).reverse
        ++ List.replicate (pad q) 0) ++ tr.reverse := by
  induction j generalizing ov tr with
  | zero => exact ⟨ov, tr, by simp [pure, Except.pure], hlen, hov, by simp⟩
  | succ j ih =>
    have hs := sweep (cell j) (w j) ov (tr ++ List.replicate (pad j) 0) (V j)
      (by rw [hlen]; exact hw j (by omega)) (fun i hi l hl hk => hcell j (by omega) i hi l (by omega)
        (fun k hik hkw => by rw [hk k hik, hov k hkw]))
    have hlen' : ((List.range (w j)).map (V j) ++ ov.drop (w j)).length = N := by
      have := hw j (by omega)
      simp [hlen]; omega
    obtain ⟨ov', tr', h1, h2, h3, h4⟩ := ih ((List.range (w j)).map (V j) ++ ov.drop (w j))
      (tr ++ List.replicate (pad j) 0 ++ (List.range (w j)).map (V j)) hlen'
      (fun i hi => hw i (by omega))
      (fun k hk => by rw [List.getElem?_append_left (by simpa using hk)]; simp [hk])
      (fun q hq => hcell q (by omega))
    refine ⟨ov', tr', ?_, h2, h3, ?_⟩
    · rw [List.range_succ, List.reverse_append, List.reverse_singleton, List.singleton_append,
        List.foldlM_cons]
      simp only [bind, Except.bind] at hs h1 ⊢
      rw [hs]
      exact h1
    · rw [h4, List.range_succ, List.flatMap_append]
      simp

/-- Indexing into equal-length blocks. -/
theorem getElem?_blocks {f : ℕ → List R} {c m : ℕ} (hf : ∀ i < m, (f i).length = c) {i a : ℕ}
    (hi : i < m) (ha : a < c) : ((List.range m).flatMap f)[i * c + a]? = (f i)[a]? := by
  induction m with
  | zero => omega
  | succ m ih =>
    have hl : ((List.range m).flatMap f).length = m * c := by
      clear ih hi
      induction m with
      | zero => simp
      | succ m ih =>
        rw [List.range_succ, List.flatMap_append, List.length_append, ih (fun i hi => hf i (by omega))]
        simp [hf m (by omega)]; ring
    rw [List.range_succ, List.flatMap_append]
    rcases Nat.lt_succ_iff_lt_or_eq.1 hi with h | h
    · rw [List.getElem?_append_left, ih (fun i hi => hf i (by omega)) h]
      rw [hl]
      have : (i + 1) * c ≤ m * c := Nat.mul_le_mul_right c h
      have e : (i + 1) * c = i * c + c := by ring
      omega
    · subst h
      rw [List.getElem?_append_right (by rw [hl]; omega), hl]
      simp

theorem length_blocks {f : ℕ → List R} {c m : ℕ} (hf : ∀ i < m, (f i).length = c) :
    ((List.range m).flatMap f).length = m * c := by
  induction m with
  | zero => simp
  | succ m ih =>
    rw [List.range_succ, List.flatMap_append, List.length_append, ih (fun i hi => hf i (by omega))]
    simp [hf m (by omega)]; ring

end Verif
