import Verif.Props.ObjGreeks
import Verif.Lemmas.Slice

/-!
# Array arguments (C14)
-/
set_option linter.unusedSimpArgs false
namespace Verif.Props
open Verif

/-- The classes documented to accept arrays. -/
noncomputable def arrayClasses : List Cls := [gbsCls, bsCls, black76Cls, msCls, kirkCls]

theorem array_mem {c : Cls} (h : c ∈ arrayClasses) : c ∈ classes := by
  simp only [arrayClasses, classes, List.mem_cons, List.not_mem_nil, or_false] at h ⊢
  tauto

theorem slice_key (i : ℕ) (kw : Dict) : (Dict.slice i kw).map (·.1) = kw.map (·.1) := by
  simp [Dict.slice, List.map_map, Function.comp_def]

theorem bindArgs_of_slice {sig : List (String × Option Val)} {kw : Dict} (i : ℕ) {q : Attrs}
    (h : bindArgs sig (Dict.slice i kw) = .ok q) : ∃ p, bindArgs sig kw = .ok p := by
  obtain ⟨hk, -, hreq⟩ := bindArgs_ok h
  rw [slice_key] at hk
  unfold bindArgs
  rw [if_neg, if_neg]
  · exact ⟨_, rfl⟩
  · rw [List.any_eq_true]
    rintro ⟨q, hq, h'⟩
    rw [Bool.and_eq_true, Option.isNone_iff_eq_none, Option.isNone_iff_eq_none] at h'
    rcases hreq q hq with h1 | h1
    · rw [lookup_slice, h'.1] at h1; simp at h1
    · rw [h'.2] at h1; simp at h1
  · rw [List.any_eq_true]
    rintro ⟨kv, hkv, h'⟩
    have h3 := hk kv.1 (List.mem_map.mpr ⟨kv, hkv, rfl⟩)
    have := List.contains_iff_mem.mpr h3
    rw [this] at h'
    simp at h'

/-- **C14, part that holds.** Take keyword arguments that are numbers, `None`, or arrays of length `n`
(or one), in any mix. If the scalar option built from the elements at each index `i < n` is built
without exception, then so is the array option; and for every price and greek `m` other than `rho` (and
for `rho` too if `b` is not an array): if `m` returns on each scalar option, it returns on the array
option, and element `i` of its result is the result of the scalar option at `i`.
Missing: `rho` with an array `b`, which raises, see `C14_rho_array_raises`. -/
theorem C14_elementwise_partial {c : Cls} (hc : c ∈ arrayClasses) {n : ℕ} (hn : 0 < n) {kw : Dict}
    (hkw : ∀ kv ∈ kw, kv.2.Len n) {b : ℕ → Attrs}
    (hb : ∀ i < n, c.construct (Dict.slice i kw) = (b i, none)) :
    ∃ a, c.construct kw = (a, none) ∧
      ∀ m ∈ methodsOf c, (m.body.noIte = true ∨ ∃ y, a "_b" = some (.num y)) →
        ∀ w : ℕ → Val, (∀ i < n, m.run (b i) = .ok (w i)) →
          ∃ v, m.run a = .ok v ∧ ∀ i < n, w i = v.slice i := by
  have hl := lawful_of_mem (array_mem hc)
  have hdef : c.plainDefaults = true ∧ arrayBody c.body = true := by
    simp only [arrayClasses, List.mem_cons, List.not_mem_nil, or_false] at hc
    rcases hc with rfl | rfl | rfl | rfl | rfl <;> constructor <;> decide +kernel
  have hb0 := hb 0 hn
  obtain ⟨q, hq, hst⟩ := construct_state hl hb0
  obtain ⟨p, hp⟩ := bindArgs_of_slice 0 hq
  have hlen := bindArgs_len hl hdef.1 hkw hp
  have hex : ∀ i < n, exec (p.slice i) c.body (Attrs.slice i Attrs.empty) = (b i, none) := by
    intro i hi
    have := hb i hi
    unfold Cls.construct Cls.init at this
    rw [bindArgs_slice hl hdef.1 i hp] at this
    exact this
  obtain ⟨a, ha⟩ := exec_ok_of_slice p n hn hlen c.body Attrs.empty (b 0) hdef.2 (by simp [Attrs.empty])
    (hex 0 hn)
  have hsl : ∀ i < n, b i = a.slice i := fun i hi =>
    (exec_slice p n i hi hlen c.body Attrs.empty a (b i) (by simp [Attrs.empty]) ha (hex i hi)).1
  have hal := (exec_slice p n 0 hn hlen c.body Attrs.empty a (b 0) (by simp [Attrs.empty]) ha
    (hex 0 hn)).2
  refine ⟨a, by unfold Cls.construct Cls.init; rw [hp]; exact ha, fun m hm hite w hw => ?_⟩
  have hsafe : ∀ i < n, ∀ v, m.run a = .ok v → w i = v.slice i := by
    intro i hi v hv
    have h2 := hw i hi
    rw [hsl i hi] at h2
    exact run_slice m a n i hi hal hv h2
  suffices hok : ∃ v, m.run a = .ok v by
    obtain ⟨v, hv⟩ := hok
    exact ⟨v, hv, fun i hi => hsafe i hi v hv⟩
  have h0 := hw 0 hn
  rw [hsl 0 hn] at h0
  unfold Meth.run at h0 ⊢
  have hneeds : m.needs.any (isNoneArg (a.slice 0)) = m.needs.any (isNoneArg a) := by
    congr 1
    funext x
    exact isNoneArg_slice 0 a x
  rw [hneeds] at h0
  split at h0
  · cases h0
  rename_i hnn
  rw [if_neg hnn]
  have hE : Attrs.empty = Attrs.slice 0 Attrs.empty := rfl
  by_cases hno : m.body.noIte = true
  · rw [hE] at h0
    exact eval_ok_of_slice Attrs.empty a n hn (by simp [Attrs.empty]) hal m.body hno _ h0
  · obtain ⟨y, hy⟩ := hite.resolve_left hno
    have hrho : ∃ e₁ e₂ : Expr, m.body = .ite (.attr "_b") e₁ e₂ ∧ e₁.noIte = true ∧
        e₂.noIte = true := by
      have hall : ∀ c ∈ arrayClasses, ∀ m ∈ methodsOf c, m.body.noIte = true ∨
          m = GBSClass.rhoC ∨ m = GBSClass.rhoP := by
        intro c hc m hm
        simp only [arrayClasses, List.mem_cons, List.not_mem_nil, or_false] at hc
        rcases hc with rfl | rfl | rfl | rfl | rfl
        · simp only [methodsOf, gbsCls, List.mem_cons, true_or, if_true, GBSClass.methods,
            List.not_mem_nil, or_false] at hm
          rcases hm with rfl | rfl | rfl | rfl | rfl | rfl | rfl | rfl | rfl | rfl | rfl | rfl | rfl | rfl <;>
            first
              | exact Or.inl (by decide +kernel)
              | exact Or.inr (Or.inl rfl)
              | exact Or.inr (Or.inr rfl)
        · simp [methodsOf, bsCls, GBSClass.methods] at hm
          rcases hm with rfl | rfl | rfl | rfl | rfl | rfl | rfl | rfl | rfl | rfl | rfl | rfl | rfl | rfl <;>
            first
              | exact Or.inl (by decide +kernel)
              | exact Or.inr (Or.inl rfl)
              | exact Or.inr (Or.inr rfl)
        · simp [methodsOf, black76Cls, GBSClass.methods] at hm
          rcases hm with rfl | rfl | rfl | rfl | rfl | rfl | rfl | rfl | rfl | rfl | rfl | rfl | rfl | rfl <;>
            first
              | exact Or.inl (by decide +kernel)
              | exact Or.inr (Or.inl rfl)
              | exact Or.inr (Or.inr rfl)
        · simp [methodsOf, msCls] at hm
          rcases hm with rfl | rfl <;> exact Or.inl (by decide +kernel)
        · simp [methodsOf, kirkCls] at hm
          rcases hm with rfl | rfl <;> exact Or.inl (by decide +kernel)
      rcases hall c hc m hm with h | rfl | rfl
      · exact absurd h hno
      · exact ⟨_, _, rfl, by decide +kernel, by decide +kernel⟩
      · exact ⟨_, _, rfl, by decide +kernel, by decide +kernel⟩
    obtain ⟨e₁, e₂, he, h1, h2⟩ := hrho
    rw [he] at h0 ⊢
    have hy0 : a.slice 0 "_b" = some (.num y) := by simp [Attrs.slice, hy, Val.slice]
    simp only [Expr.eval, hy0, hy, ok_bind, Val.nonzero] at h0 ⊢
    by_cases hz : decide (y ≠ 0) = true
    · rw [if_pos hz] at h0 ⊢
      rw [hE] at h0
      exact eval_ok_of_slice Attrs.empty a n hn (by simp [Attrs.empty]) hal e₁ h1 _ h0
    · rw [if_neg hz] at h0 ⊢
      rw [hE] at h0
      exact eval_ok_of_slice Attrs.empty a n hn (by simp [Attrs.empty]) hal e₂ h2 _ h0

/-- **C14 fails** for `rho`: on any object whose `_b` is an array of two or more elements, `rho`
raises `ValueError` (`if self._b != 0` on an array). -/
theorem C14_rho_array_raises (a : Attrs) (x y : ℝ) (l : List ℝ) (hb : a "_b" = some (.arr (x :: y :: l))) :
    GBSClass.rhoC.run a = .error .valueError ∧ GBSClass.rhoP.run a = .error .valueError := by
  constructor
  · unfold Meth.run
    split
    · rfl
    · simp only [GBSClass.rhoC, Expr.eval, hb, ok_bind, Val.nonzero, error_bind]
  · unfold Meth.run
    split
    · rfl
    · simp only [GBSClass.rhoP, Expr.eval, hb, ok_bind, Val.nonzero, error_bind]

/-- Example for C14: two strikes with a scalar spot and a one-element carry array; the call price is
the array of the two scalar prices. -/
theorem C14_example :
    ∃ a v, gbsCls.construct [("S", .num 100), ("K", .arr [95, 105]), ("t", .num 1), ("r", .num 0.01),
        ("b", .num 0.02), ("sigma", .arr [0.2])] = (a, none) ∧
      GBSClass.call.run a = .ok v ∧
      (GBS.new 100 95 1 0.01 0.02 (some 0.2)).call.map .num = .ok (v.slice 0) ∧
      (GBS.new 100 105 1 0.01 0.02 (some 0.2)).call.map .num = .ok (v.slice 1) := by
  obtain ⟨b0, hb0, hg0⟩ := isGBS_construct 100 95 1 0.01 0.02 0.2 (by norm_num)
  obtain ⟨b1, hb1, hg1⟩ := isGBS_construct 100 105 1 0.01 0.02 0.2 (by norm_num)
  obtain ⟨u0, hu0⟩ := gbs_call_ok 100 95 1 0.01 0.02 0.2
  obtain ⟨u1, hu1⟩ := gbs_call_ok 100 105 1 0.01 0.02 0.2
  obtain ⟨a, ha, hm⟩ := C14_elementwise_partial (c := gbsCls) (by simp [arrayClasses]) (n := 2)
    (by norm_num) (kw := [("S", .num 100), ("K", .arr [95, 105]), ("t", .num 1), ("r", .num 0.01),
        ("b", .num 0.02), ("sigma", .arr [0.2])]) (by simp [Val.Len])
    (b := fun i => if i = 0 then b0 else b1) (by
      intro i hi
      rcases Nat.lt_succ_iff_lt_or_eq.mp hi with h | rfl
      · obtain rfl : i = 0 := by omega
        simpa [Dict.slice, Val.slice, Val.get, gbsKw] using hb0
      · simpa [Dict.slice, Val.slice, Val.get, gbsKw] using hb1)
  have e0 := (isGBS_methods hg0).1
  have e1 := (isGBS_methods hg1).1
  rw [hu0] at e0
  rw [hu1] at e1
  obtain ⟨v, hv, hw⟩ := hm GBSClass.call (by simp [methodsOf, gbsCls, GBSClass.methods])
    (Or.inl (by decide +kernel)) (fun i => if i = 0 then .num u0 else .num u1) (by
      intro i hi
      rcases Nat.lt_succ_iff_lt_or_eq.mp hi with h | rfl
      · obtain rfl : i = 0 := by omega
        simpa [Except.map] using e0
      · simpa [Except.map] using e1)
  refine ⟨a, v, ha, hv, ?_, ?_⟩
  · rw [hu0, ← hw 0 (by norm_num)]; rfl
  · rw [hu1, ← hw 1 (by norm_num)]; rfl

end Verif.Props
