import Verif.Model.MCObj
import Verif.Lemmas.MC

/-!
# C99: Monte Carlo options with missing or unknown arguments
-/
namespace Verif.Props
open Verif Real

/-- **C99.** The constructor raises `ZeroDivisionError` exactly for a path length of zero, `TypeError` exactly for a positive path
length without `Innovation`, and succeeds otherwise – even without `sigma`, `Path` and `Payoff`. -/
theorem C99_constructor (a : MC.Args) :
    (MC.Obj.new a = .error .zeroDivision ↔ a.pathLength = 0) ∧
    (MC.Obj.new a = .error .typeError ↔ a.pathLength ≠ 0 ∧ a.innovation = none) ∧
    ((∃ o, MC.Obj.new a = .ok o) ↔ a.pathLength ≠ 0 ∧ a.innovation ≠ none) := by
  by_cases h : a.pathLength = 0
  · simp [MC.Obj.new, h, throw, throwThe, MonadExceptOf.throw, bind, Except.bind]
  · cases hi : a.innovation <;>
      simp [MC.Obj.new, h, hi, MC.callable, pure, Except.pure, bind, Except.bind]

/-- **C99.** The price of the complete object is that of `Model/MC`, so C43–C48, C61 and C62 apply to it. -/
theorem C99_complete {a : MC.Args} {σ : ℝ} {k : MC.Kind} (hσ : a.sigma = some σ) (hi : a.innovation ≠ none) (hp : a.path ≠ none)
    (hk : a.payoff = some k) (hn : a.pathLength ≠ 0) (call : Bool) (sample : ℕ → MC.Rows) :
    ∃ o o' it, MC.Obj.new a = .ok o ∧
      MC.new a.loops a.pathLength a.S a.K a.t a.r a.b σ a.anti a.stand a.trace = .ok o' ∧
      MC.price k o' call sample = .ok it ∧ o.price call sample = .ok it := by
  obtain ⟨u, hu⟩ := Option.ne_none_iff_exists'.1 hi
  obtain ⟨v, hv⟩ := Option.ne_none_iff_exists'.1 hp
  refine ⟨⟨a.loops, a.t / a.pathLength, a.S, a.K, a.t, a.r, a.b, a.sigma, a.path, a.payoff, a.trace, a.anti, a.stand, a.kwargs⟩,
    ⟨a.loops, a.t / a.pathLength, a.S, a.K, a.t, a.r, a.b, σ, a.anti, a.stand, a.trace⟩,
    (List.range a.loops).map fun i => MC.mean (MC.payoff k
      ⟨a.loops, a.t / a.pathLength, a.S, a.K, a.t, a.r, a.b, σ, a.anti, a.stand, a.trace⟩ call (MC.prep a.anti a.stand (sample i))), ?_, ?_, ?_, ?_⟩
  · simp [MC.Obj.new, hn, hu, MC.callable, pure, Except.pure, bind, Except.bind]
  · simp [MC.new, hn]
  · exact MC.sim_ok _ _ _ _ _ _ _ fun i _ => rfl
  · have := MC.sim_ok (0 : ℝ) (fun _ => false) MC.mean (MC.prep a.anti a.stand) (MC.payoff k
      ⟨a.loops, a.t / a.pathLength, a.S, a.K, a.t, a.r, a.b, σ, a.anti, a.stand, a.trace⟩ call) a.loops sample fun i _ => rfl
    have hbody : ∀ (l : List ℕ) (s : List ℝ) (it : List ℝ),
        l.foldlM (m := Except (MC.Rows × List ℝ)) (fun iteration i => .ok (iteration.set i (MC.mean (MC.payoff k
          ⟨a.loops, a.t / a.pathLength, a.S, a.K, a.t, a.r, a.b, σ, a.anti, a.stand, a.trace⟩ call (MC.prep a.anti a.stand (sample i)))))) s = .ok it →
        l.foldlM (MC.Obj.body ⟨a.loops, a.t / a.pathLength, a.S, a.K, a.t, a.r, a.b, a.sigma, a.path, a.payoff, a.trace, a.anti, a.stand, a.kwargs⟩
          call sample) s = .ok it := by
      intro l
      induction l with
      | nil => intro s it h; simpa [pure, Except.pure] using h
      | cons i l ih =>
        intro s it h
        rw [List.foldlM_cons] at h ⊢
        have hb : MC.Obj.body ⟨a.loops, a.t / a.pathLength, a.S, a.K, a.t, a.r, a.b, a.sigma, a.path, a.payoff, a.trace, a.anti, a.stand, a.kwargs⟩
            call sample s i = .ok (s.set i (MC.mean (MC.payoff k
          ⟨a.loops, a.t / a.pathLength, a.S, a.K, a.t, a.r, a.b, σ, a.anti, a.stand, a.trace⟩ call (MC.prep a.anti a.stand (sample i))))) := by
          simp only [MC.Obj.body, hv, hk, hσ, MC.callable, MC.generatePath, bind, Except.bind, pure, Except.pure]
          cases k <;> rfl
        rw [hb]
        exact ih _ _ h
    exact hbody _ _ _ this

/-- **C99.** Without `sigma`, without `Path` or without `Payoff`, an object with at least one loop raises `TypeError` in `call()` and
`put()`, for every source of innovations; without any loop it returns an empty array. -/
theorem C99_missing (o : MC.Obj) (h : o.sigma = none ∨ o.path = none ∨ o.payoff = none) (call : Bool) (sample : ℕ → MC.Rows) :
    (0 < o.loops → o.price call sample = .error .typeError) ∧ (o.loops = 0 → o.price call sample = .ok []) := by
  constructor
  · intro hl
    obtain ⟨n, hn⟩ := Nat.exists_eq_succ_of_ne_zero hl.ne'
    have hb : ∀ s i, o.body call sample s i = .error .typeError := by
      intro s i
      unfold MC.Obj.body
      cases hp : o.path with
      | none => rfl
      | some v =>
        cases hk : o.payoff with
        | none => rfl
        | some k =>
          cases hs : o.sigma with
          | none => rfl
          | some σ => simp [hp, hk, hs] at h
    rw [MC.Obj.price, hn, List.range_succ_eq_map, List.foldlM_cons, hb]
    rfl
  · intro hl
    simp [MC.Obj.price, hl, pure, Except.pure]

/-- **C99 (finding).** Keyword arguments the constructor does not know are stored and never read: with any set of them the constructor
behaves alike, and the object returns the same prices. A misspelt `antithetics=True` has no effect and no error. -/
theorem C99_unknown_keywords (a : MC.Args) (kw : Dict) :
    (∀ e, MC.Obj.new a = .error e ↔ MC.Obj.new { a with kwargs := kw } = .error e) ∧
    ∀ o, MC.Obj.new a = .ok o → ∃ o', MC.Obj.new { a with kwargs := kw } = .ok o' ∧
      ∀ call sample, o'.price call sample = o.price call sample := by
  have key : MC.Obj.new { a with kwargs := kw } = (MC.Obj.new a).map fun o => { o with kwargs := kw } := by
    by_cases h : a.pathLength = 0
    · simp [MC.Obj.new, h, throw, throwThe, MonadExceptOf.throw, bind, Except.bind, Except.map]
    · cases hi : a.innovation <;>
        simp [MC.Obj.new, h, hi, MC.callable, pure, Except.pure, bind, Except.bind, Except.map]
  constructor
  · intro e
    rw [key]
    cases MC.Obj.new a <;> simp [Except.map]
  · intro o ho
    rw [key, ho]
    exact ⟨_, rfl, fun call sample => rfl⟩

/-- Non-vacuous: an object without `sigma` is built and then cannot price. -/
theorem C99_example : ∃ o, MC.Obj.new ⟨50, 30, 100, 100, 1 / 12, 0.1, 0.1, none, some (), some (), some .vanilla, false, true, false,
      [("antithetics", .num 1)]⟩ = .ok o ∧ ∀ sample, o.price true sample = .error .typeError := by
  obtain ⟨o, ho⟩ := (C99_constructor ⟨50, 30, 100, 100, 1 / 12, 0.1, 0.1, none, some (), some (), some .vanilla, false, true, false,
      [("antithetics", .num 1)]⟩).2.2.2 ⟨by norm_num, by simp⟩
  refine ⟨o, ho, fun sample => ?_⟩
  simp only [MC.Obj.new, MC.callable, pure, Except.pure, bind, Except.bind] at ho
  norm_num at ho
  subst ho
  exact (C99_missing _ (Or.inl rfl) _ _).1 (by norm_num)

end Verif.Props
