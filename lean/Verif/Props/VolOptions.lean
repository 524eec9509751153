import Verif.Model.VolFull
import Verif.Props.ImpliedVol

/-!
# C116: the options of `volatility()`

What `verbose`, `tol` and `maxiter` do, when the warning is issued, and what becomes of a search that fails.
-/
namespace Verif.Props
open Verif
open scoped Classical

/-- The same finder without its flag. -/
def forget : Finder → Rule
  | .done r => .done r.value
  | .fail e => .fail e
  | .ask x k => .ask x fun y => forget (k y)

/-- The same finder with another flag. -/
def reflag (g : Bool → Bool) : Finder → Finder
  | .done r => .done ⟨r.value, g r.success⟩
  | .fail e => .fail e
  | .ask x k => .ask x fun y => reflag g (k y)

/-- A finder all of whose results report failure. -/
inductive NeverSucceeds : Finder → Prop
  | done (v : Val) : NeverSucceeds (.done ⟨v, false⟩)
  | fail (e : PyErr) : NeverSucceeds (.fail e)
  | ask (x : Val) (k : Val → Finder) : (∀ y, NeverSucceeds (k y)) → NeverSucceeds (.ask x k)

theorem heap_bind_err {α β : Type} {m : HeapM α} {k : α → HeapM β} {h h' : Heap} {e : PyErr}
    (hm : m h = (.error e, h')) : (m >>= k) h = (.error e, h') := by
  change (ExceptT.bind m k) h = _
  unfold ExceptT.bind ExceptT.mk
  change StateT.bind m (ExceptT.bindCont k) h = _
  unfold StateT.bind
  rw [hm]
  rfl

theorem run_forget (f : Val → HeapM Val) (F : Finder) (h : Heap) :
    (forget F).run f h = (do return (← F.run f).value) h := by
  induction F generalizing h with
  | done r => rfl
  | fail e => rfl
  | ask x k ih =>
    rcases hf : f x h with ⟨y, h'⟩
    cases y with
    | error e =>
      have h1 : (Finder.run f (.ask x k)) h = (.error e, h') := heap_bind_err hf
      rw [heap_bind_err h1]
      exact heap_bind_err hf
    | ok y =>
      have h1 : (Finder.run f (.ask x k)) h = (k y).run f h' := heap_bind_ok hf
      have h2 : (Rule.run f (forget (.ask x k))) h = (forget (k y)).run f h' := heap_bind_ok hf
      rw [h2, ih y h']
      rcases hk : (k y).run f h' with ⟨z, h''⟩
      cases z with
      | error e => rw [heap_bind_err hk, heap_bind_err (h1.trans hk)]
      | ok z => rw [heap_bind_ok hk, heap_bind_ok (h1.trans hk)]

theorem forget_reflag (g : Bool → Bool) (F : Finder) : forget (reflag g F) = forget F := by
  induction F with
  | done r => rfl
  | fail e => rfl
  | ask x k ih => simp only [reflag, forget, ih]

/-- The positional arguments of `_func`: the price and the parameters. -/
def argsOf (price : Val) (d : Dict) : List Val := price :: d.map (·.2)

section
variable (scalar : ℝ → ℕ → ℝ → ℝ → Finder) (vec : List ℝ → Finder) (c : Cls) (cl pt : Attrs → Except PyErr Val)
  (i : ℕ) (price : Val) (call : Bool)

/-- The parameters of the object at address `i`, when they can be read. -/
def ParamsAt (h : Heap) (d : Dict) : Prop := c.getParams (h.getD i Attrs.empty) = .ok d

/-- **C116, warning.** The warning is issued exactly when the object has a volatility. -/
theorem C116_warning {h : Heap} {s : Val} (hs : h.getD i Attrs.empty "_sigma" = some s) :
    volWarns i h = (.ok (decide (s ≠ Val.none)), h) := by
  have e : HeapM.getAttr i "_sigma" h = (.ok s, h) := by
    show (_, h) = _
    rw [hs]
  unfold volWarns
  rw [heap_bind_ok e]
  cases s <;> simp <;> rfl

/-- The run after the parameters have been read. -/
theorem volatilityOpt_eq {h : Heap} {s : Val} {d : Dict} (hs : h.getD i Attrs.empty "_sigma" = some s)
    (hd : ParamsAt c i h d) (tol : ℝ) (maxiter : ℕ) (verbose : Bool) :
    volatilityOpt scalar vec c cl pt i price call tol maxiter verbose h
      = (do
          let r ← (if checkArray (argsOf price d) then vec (List.replicate (maxArray (argsOf price d)).length 1)
            else scalar tol maxiter (-10) 10).run (volFunc c cl pt i call price)
          return (decide (s ≠ Val.none), if verbose then VolOut.object r else VolOut.value r.value)) h := by
  have e1 : (HeapM.load i) h = (.ok (h.getD i Attrs.empty), h) := rfl
  have e2 : (HeapM.lift (c.getParams (h.getD i Attrs.empty))) h = (.ok d, h) := by
    unfold HeapM.lift; rw [hd]
  unfold volatilityOpt
  rw [heap_bind_ok (C116_warning i hs), heap_bind_ok e1, heap_bind_ok e2]
  cases hc : checkArray (argsOf price d) <;> cases verbose <;> unfold argsOf at * <;> simp only [hc, if_true, if_false, Bool.false_eq_true]

theorem volatility_eq' (sc : ℝ → ℝ → Rule) (ve : List ℝ → Rule) {h : Heap} {d : Dict} (hd : ParamsAt c i h d) :
    volatility sc ve c cl pt i price call h
      = ((if checkArray (argsOf price d) then ve (List.replicate (maxArray (argsOf price d)).length 1)
            else sc (-10) 10).run (volFunc c cl pt i call price)) h := by
  have e1 : (HeapM.load i) h = (.ok (h.getD i Attrs.empty), h) := rfl
  have e2 : (HeapM.lift (c.getParams (h.getD i Attrs.empty))) h = (.ok d, h) := by
    unfold HeapM.lift; rw [hd]
  unfold volatility
  rw [heap_bind_ok e1, heap_bind_ok e2]
  unfold argsOf
  split_ifs <;> rfl

/-- **C116, the number.** Without `verbose` the method returns the value found by the solver – the one of the model
without options, whose properties are C13, C15, C81 and C102 –, with the tolerance and the iteration limit handed to
the scalar solver, and leaves the same heap. -/
theorem C116_value {h : Heap} {s : Val} {d : Dict} (hs : h.getD i Attrs.empty "_sigma" = some s)
    (hd : ParamsAt c i h d) (tol : ℝ) (maxiter : ℕ) :
    volatilityOpt scalar vec c cl pt i price call tol maxiter false h
      = (do
          let v ← volatility (fun lo hi => forget (scalar tol maxiter lo hi)) (fun x0 => forget (vec x0)) c cl pt i price call
          return (decide (s ≠ Val.none), VolOut.value v)) h := by
  rw [volatilityOpt_eq scalar vec c cl pt i price call hs hd]
  have e := volatility_eq' c cl pt i price call (fun lo hi => forget (scalar tol maxiter lo hi)) (fun x0 => forget (vec x0)) hd
  set F := if checkArray (argsOf price d) then vec (List.replicate (maxArray (argsOf price d)).length 1)
            else scalar tol maxiter (-10) 10 with hF
  have e' : volatility (fun lo hi => forget (scalar tol maxiter lo hi)) (fun x0 => forget (vec x0)) c cl pt i price call h
      = (do return (← F.run (volFunc c cl pt i call price)).value) h := by
    rw [e, ← run_forget, hF]
    split_ifs <;> rfl
  rcases hk : F.run (volFunc c cl pt i call price) h with ⟨z, h'⟩
  cases z with
  | error e => rw [heap_bind_err hk, heap_bind_err (e'.trans (heap_bind_err hk))]
  | ok z =>
    rw [heap_bind_ok hk, heap_bind_ok (e'.trans (heap_bind_ok hk))]
    rfl

/-- **C116, verbose.** With `verbose` the method makes the same calls, raises the same exceptions and returns the object
whose value it returns otherwise. -/
theorem C116_verbose {h : Heap} {s : Val} {d : Dict} (hs : h.getD i Attrs.empty "_sigma" = some s)
    (hd : ParamsAt c i h d) (tol : ℝ) (maxiter : ℕ) :
    (∃ r h', volatilityOpt scalar vec c cl pt i price call tol maxiter true h = (.ok (decide (s ≠ Val.none), .object r), h') ∧
      volatilityOpt scalar vec c cl pt i price call tol maxiter false h = (.ok (decide (s ≠ Val.none), .value r.value), h')) ∨
    (∃ e h', volatilityOpt scalar vec c cl pt i price call tol maxiter true h = (.error e, h') ∧
      volatilityOpt scalar vec c cl pt i price call tol maxiter false h = (.error e, h')) := by
  rw [volatilityOpt_eq scalar vec c cl pt i price call hs hd, volatilityOpt_eq scalar vec c cl pt i price call hs hd]
  set F := if checkArray (argsOf price d) then vec (List.replicate (maxArray (argsOf price d)).length 1)
            else scalar tol maxiter (-10) 10
  rcases hk : F.run (volFunc c cl pt i call price) h with ⟨z, h'⟩
  cases z with
  | error e => exact .inr ⟨e, h', heap_bind_err hk, heap_bind_err hk⟩
  | ok z => exact .inl ⟨z, h', by rw [heap_bind_ok hk]; rfl, by rw [heap_bind_ok hk]; rfl⟩

/-- **C116 fails: failures are not reported.** What is returned without `verbose` does not depend on whether the solver
reports success. -/
theorem C116_flag_ignored {h : Heap} {s : Val} {d : Dict} (hs : h.getD i Attrs.empty "_sigma" = some s)
    (hd : ParamsAt c i h d) (tol : ℝ) (maxiter : ℕ) (g : Bool → Bool) :
    volatilityOpt (fun tol m lo hi => reflag g (scalar tol m lo hi)) (fun x0 => reflag g (vec x0)) c cl pt i price call tol
        maxiter false h
      = volatilityOpt scalar vec c cl pt i price call tol maxiter false h := by
  rw [C116_value _ _ c cl pt i price call hs hd, C116_value _ _ c cl pt i price call hs hd]
  simp only [forget_reflag]

/-- **C116 fails: tolerance and iteration limit are ignored for arrays.** -/
theorem C116_array_options {h : Heap} {s : Val} {d : Dict} (hs : h.getD i Attrs.empty "_sigma" = some s)
    (hd : ParamsAt c i h d) (ha : ∃ xs, Val.arr xs ∈ argsOf price d ∧ 1 < xs.length) (tol tol' : ℝ)
    (maxiter maxiter' : ℕ) (verbose : Bool) :
    volatilityOpt scalar vec c cl pt i price call tol maxiter verbose h
      = volatilityOpt scalar vec c cl pt i price call tol' maxiter' verbose h := by
  rw [volatilityOpt_eq scalar vec c cl pt i price call hs hd, volatilityOpt_eq scalar vec c cl pt i price call hs hd]
  have : checkArray (argsOf price d) = true := by
    unfold checkArray
    rw [List.any_eq_true]
    obtain ⟨xs, hv, hb⟩ := ha
    exact ⟨_, hv, by simpa [Val.isBigArray] using hb⟩
  rw [if_pos this, if_pos this]

end

/-- **C116, a failure passed off as a volatility.** A solver that always reports failure – here one that gives up at the
end of its bracket – makes `volatility()` of a `GBSOption` without volatility return the number -10, without a warning;
only `verbose=True` shows the failure. -/
theorem C116_failure_unreported (vec : List ℝ → Finder) (P tol : ℝ) (maxiter : ℕ) :
    ∃ (scalar : ℝ → ℕ → ℝ → ℝ → Finder) (a : Attrs), (∀ tol m lo hi, NeverSucceeds (scalar tol m lo hi)) ∧
      gbsCls.construct (gbsKwV (.num 100) (.num 95) (.num 1) (.num 0.01) (.num 0.02) (.none)) = (a, none) ∧
      (volatilityOpt scalar vec gbsCls GBSClass.call.run GBSClass.put.run 0 (.num P) true tol maxiter false [a]).1
        = .ok (false, .value (.num (-10))) ∧
      (volatilityOpt scalar vec gbsCls GBSClass.call.run GBSClass.put.run 0 (.num P) true tol maxiter true [a]).1
        = .ok (false, .object ⟨.num (-10), false⟩) := by
  obtain ⟨a, ha⟩ : ∃ a, gbsCls.construct (gbsKwV (.num 100) (.num 95) (.num 1) (.num 0.01)
      (.num 0.02) (.none)) = (a, none) := by
    simp [Cls.construct, Cls.init, gbsCls, gbsKwV, bindArgs, req, dflt, optionInit, assignParams,
      GBSClass.initD, exec, Expr.eval, isNoneArg, Attrs.set, List.lookup]
  have hs : List.getD [a] 0 Attrs.empty "_sigma" = some Val.none := by
    show a "_sigma" = some Val.none
    have := ha
    simp [Cls.construct, Cls.init, gbsCls, gbsKwV, bindArgs, req, dflt, optionInit, assignParams,
      GBSClass.initD, exec, Expr.eval, isNoneArg, Attrs.set, List.lookup] at this
    rw [← this]
    simp
  have hd : ParamsAt gbsCls 0 [a] _ := gbs_params_ofV ha
  refine ⟨fun _ _ lo _ => .done ⟨.num lo, false⟩, a, fun _ _ lo _ => .done _, ha, ?_, ?_⟩
  · rw [volatilityOpt_eq _ _ gbsCls _ _ 0 _ _ (s := .none) hs hd, if_neg (by simp [checkArray, argsOf, gbsKwV, Val.isBigArray])]
    have : decide (Val.none ≠ Val.none) = false := by simp
    rw [this]
    rfl
  · rw [volatilityOpt_eq _ _ gbsCls _ _ 0 _ _ (s := .none) hs hd, if_neg (by simp [checkArray, argsOf, gbsKwV, Val.isBigArray])]
    have : decide (Val.none ≠ Val.none) = false := by simp
    rw [this]
    rfl

/-- The hypotheses of `C116_array_options` hold for a `GBSOption` with two spot prices. -/
theorem C116_example (P : ℝ) :
    ∃ a d, gbsCls.construct (gbsKwV (.arr [100, 110]) (.num 95) (.num 1) (.num 0.01) (.num 0.02) .none) = (a, none) ∧
      List.getD [a] 0 Attrs.empty "_sigma" = some .none ∧ ParamsAt gbsCls 0 [a] d ∧
      ∃ xs, Val.arr xs ∈ argsOf (.num P) d ∧ 1 < xs.length := by
  obtain ⟨a, ha⟩ : ∃ a, gbsCls.construct (gbsKwV (.arr [100, 110]) (.num 95) (.num 1) (.num 0.01) (.num 0.02) .none)
      = (a, none) := by
    simp [Cls.construct, Cls.init, gbsCls, gbsKwV, bindArgs, req, dflt, optionInit, assignParams,
      GBSClass.initD, exec, Expr.eval, isNoneArg, Attrs.set, List.lookup]
  have hs : List.getD [a] 0 Attrs.empty "_sigma" = some .none := by
    show a "_sigma" = _
    have := ha
    simp [Cls.construct, Cls.init, gbsCls, gbsKwV, bindArgs, req, dflt, optionInit, assignParams,
      GBSClass.initD, exec, Expr.eval, isNoneArg, Attrs.set, List.lookup] at this
    rw [← this]
    simp
  exact ⟨a, _, ha, hs, gbs_params_ofV ha, [100, 110], by simp [argsOf, gbsKwV], by simp⟩

end Verif.Props
