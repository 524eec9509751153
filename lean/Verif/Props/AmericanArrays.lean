import Verif.Props.Obj

/-!
C41: the American approximations refuse arrays.
-/
set_option linter.unusedSimpArgs false
namespace Verif.Props
open Verif

/-- The three American approximation classes. -/
noncomputable def americanClasses : List Cls := [rgwCls, bawCls, bsAmericanCls]

/-- **C41, construction.** Whatever the other arguments, if some argument is an array with more than one element the
constructor raises `TypeError` and sets no attribute. -/
theorem C41_construct {c : Cls} (hc : c ∈ americanClasses) (kw : Dict) {x : String} {xs : List ℝ}
    (hx : kw.lookup x = some (.arr xs)) (hxs : 1 < xs.length) :
    c.construct kw = (Attrs.empty, some .typeError) := by
  have hb : ∃ ps l, c.body = .noArrays ps :: l ∧ ps = c.sig.map (·.1) := by
    simp only [americanClasses, List.mem_cons, List.not_mem_nil, or_false] at hc
    rcases hc with rfl | rfl | rfl
    · exact ⟨_, _, rfl, by simp [rgwCls, req, dflt]⟩
    · exact ⟨_, _, rfl, by simp [bawCls, req, dflt]⟩
    · exact ⟨_, _, rfl, by simp [bsAmericanCls, bawCls, req, dflt]⟩
  obtain ⟨ps, l, hb, hps⟩ := hb
  unfold Cls.construct Cls.init bindArgs
  split_ifs with h1 h2
  · rfl
  · rfl
  · simp only [hb, exec]
    have hmem : x ∈ c.sig.map (·.1) := by
      by_contra hn
      apply h1
      rw [List.any_eq_true]
      have : (x, Val.arr xs) ∈ kw := by
        clear h1 h2
        induction kw with
        | nil => simp at hx
        | cons kv kw ih =>
          obtain ⟨k, v⟩ := kv
          rw [List.lookup_cons] at hx
          by_cases hk : x == k
          · simp only [hk] at hx
            rw [beq_iff_eq] at hk
            subst hk
            simp only [Option.some.injEq] at hx
            subst hx
            exact List.mem_cons_self
          · have hk' : (x == k) = false := by simpa using hk
            simp only [hk'] at hx
            exact List.mem_cons_of_mem _ (ih hx)
      refine ⟨_, this, ?_⟩
      simpa using hn
    rw [if_pos]
    rw [List.any_eq_true]
    refine ⟨x, hps ▸ hmem, ?_⟩
    have hl : ∃ d, c.sig.lookup x = some d := by
      clear h1 h2 hps hb hc
      generalize c.sig = sig at hmem
      induction sig with
      | nil => simp at hmem
      | cons p sig ih =>
        obtain ⟨k, d⟩ := p
        rw [List.lookup_cons]
        by_cases hk : x == k
        · simp only [hk]; exact ⟨d, rfl⟩
        · have hk' : (x == k) = false := by simpa using hk
          simp only [hk']
          simp only [List.map_cons, List.mem_cons] at hmem
          rcases hmem with h | h
          · simp [h] at hk
          · exact ih h
    obtain ⟨d, hd⟩ := hl
    simp [hd, hx, Val.isBigArray, hxs]

/-- **C41, `set_param`.** After any sequence of `set_param` calls (failed ones included), setting a parameter to an
array with more than one element raises `TypeError` and leaves every attribute, so all parameters, as before. -/
theorem C41_set_param {c : Cls} (hc : c ∈ americanClasses) {kw : Dict} {a₀ : Attrs}
    (h₀ : c.construct kw = (a₀, none)) (ops : List (String × Val)) {x : String} (hx : x ∈ c.names) (xs : List ℝ)
    (hxs : 1 < xs.length) :
    c.setParam x (.arr xs) (c.runCatch ops a₀) = (c.runCatch ops a₀, some .typeError) :=
  C09_arrays_refused hc h₀ ops hx xs hxs

/-- Non-vacuous: scalar arguments are accepted, and an array in place of one of them is not. -/
theorem C41_example :
    (∃ a, bawCls.construct [("S", .num 42), ("K", .num 40), ("t", .num 0.75), ("r", .num 0.04),
      ("b", .num (-0.04)), ("sigma", .num 0.35)] = (a, none) ∧ a "_K" = some (.num 40)) ∧
    bawCls.construct [("S", .num 42), ("K", .arr [40, 50]), ("t", .num 0.75), ("r", .num 0.04),
      ("b", .num (-0.04)), ("sigma", .num 0.35)] = (Attrs.empty, some .typeError) := by
  constructor
  · simp [Cls.construct, Cls.init, bawCls, bindArgs, req, dflt, optionInit, assignParams, exec, Expr.eval,
      Attrs.set, Val.isBigArray, List.lookup]
  · exact C41_construct (by simp [americanClasses]) _ (x := "K") (xs := [40, 50]) (by simp [List.lookup]) (by simp)

end Verif.Props
