import Verif.Props.Obj

/-!
# Finite-difference greeks, `Black76Option`, `repr`, `greeks()` (C10, C11, C12, C57)
-/
set_option linter.unusedSimpArgs false
namespace Verif.Props
open Verif

/-! ### C10 -/

/-- Specification of a finite-difference greek: apply the differentiation rule to the function
`x ↦ price of a fresh option of class c with parameters d, except wrt = x`, and scale. No heap. -/
noncomputable def fdSpec (D : Diff) (c : Cls) (price : Attrs → Except PyErr Val) (d : Dict)
    (x0 : Except PyErr Val) (wrt : String) (n : ℕ) (step : Option ℝ) (k : ℝ) : Except PyErr Val := do
  let x ← x0
  let v ← (D n step x).runPure (c.freshPrice price d wrt)
  scale k v

/-- `getattr`. -/
def attrOf (a : Attrs) (x : String) : Except PyErr Val :=
  match a x with | some v => .ok v | none => .error .attributeError

theorem getAttr_harmless {h : Heap} {i : ℕ} {a : Attrs} (ha : h.getD i Attrs.empty = a) (x : String) :
    Harmless (HeapM.getAttr i x) h (attrOf a x) := by
  subst ha
  exact ⟨[], by rw [List.append_nil]; rfl⟩

section
variable {c : Cls} (hc : c ∈ classes) (D : Diff) {cl pt : Attrs → Except PyErr Val}
  (hcl : c.Respects cl) (hpt : c.Respects pt) {i : ℕ} {a : Attrs} {d : Dict}
  (hd : c.getParams a = .ok d)
include hc hcl hpt hd

theorem partialAt_harmless {h : Heap} (hi : i < h.length) (ha : h.getD i Attrs.empty = a)
    (wrt x : String) (call : Bool) (n : ℕ) (step : Option ℝ) (k : ℝ) :
    Harmless (partialAt D c cl pt i wrt x call n step k) h
      (fdSpec D c (if call then cl else pt) d (attrOf a x) wrt n step k) := by
  unfold partialAt fdSpec
  refine Harmless.bind (getAttr_harmless ha x) (fun v ex _ => ?_)
  refine Harmless.bind ?_ (fun v' ex' _ => Harmless.lift _ _)
  refine rule_harmless (a := a) (fun h' x' hi' ha' => ?_) _ _
    (Nat.lt_of_lt_of_le hi (by simp))
    (by rw [getD_append_left hi, ha])
  exact fdmFunc_harmless (lawful_of_mem hc) hcl hpt wrt call ha' hd x'

/-- Specification of `lamb`. -/
noncomputable def lambSpec (D : Diff) (c : Cls) (price : Attrs → Except PyErr Val) (d : Dict)
    (a : Attrs) : Except PyErr Val := do
  let p ← price a
  let dl ← fdSpec D c price d (attrOf a "_S") "S" 1 none 1
  let s ← attrOf a "_S"
  let ds ← Val.map₂ (· * ·) dl s
  Val.map₂ (· / ·) ds p

theorem lamb_harmless {h : Heap} (hi : i < h.length) (ha : h.getD i Attrs.empty = a) (call : Bool) :
    Harmless (fdmLamb D c cl pt i call) h (lambSpec D c (if call then cl else pt) d a) := by
  unfold fdmLamb lambSpec
  have hm : Harmless (HeapM.method (if call then cl else pt) i) h ((if call then cl else pt) a) := by
    have := Harmless.method (if call then cl else pt) (i := i) (h := h)
    rwa [ha] at this
  refine Harmless.bind hm (fun p ex _ => ?_)
  have hi1 : i < (h ++ ex).length := by simp; omega
  have ha1 : (h ++ ex).getD i Attrs.empty = a := by rw [getD_append_left hi, ha]
  refine Harmless.bind (partialAt_harmless hc D hcl hpt hd hi1 ha1 _ _ _ _ _ _) (fun dl ex2 _ => ?_)
  have ha2 : (h ++ ex ++ ex2).getD i Attrs.empty = a := by rw [getD_append_left hi1, ha1]
  refine Harmless.bind (getAttr_harmless ha2 _) (fun s ex3 _ => ?_)
  exact Harmless.bind (Harmless.lift _ _) (fun ds ex4 _ => Harmless.lift _ _)

end

/-- The finite-difference greeks of the specification, in the order of base.py:303-310. -/
noncomputable def fdGreekSpecs (D : Diff) (c : Cls) (cl pt : Attrs → Except PyErr Val) (d : Dict)
    (a : Attrs) (call : Bool) : List (String × Except PyErr Val) :=
  let pr := if call then cl else pt
  [("delta", fdSpec D c pr d (attrOf a "_S") "S" 1 none 1),
   ("theta", fdSpec D c pr d (attrOf a "_t") "t" 1 (some (1 / 252)) (-1)),
   ("vega", fdSpec D c cl d (attrOf a "_sigma") "sigma" 1 none 1),
   ("rho", fdSpec D c pr d (attrOf a "_r") "r" 1 none 1),
   ("lambda", lambSpec D c pr d a),
   ("gamma", fdSpec D c cl d (attrOf a "_S") "S" 2 none 1)]

/-- The methods of `GreeksFDM` of the object at address `i`, by name. -/
noncomputable def fdMethods (D : Diff) (c : Cls) (cl pt : Attrs → Except PyErr Val) (i : ℕ)
    (call : Bool) : List (String × HeapM Val) :=
  [("delta", fdmDelta D c cl pt i call), ("theta", fdmTheta D c cl pt i call),
   ("vega", fdmVega D c cl pt i), ("rho", fdmRho D c cl pt i call),
   ("lambda", fdmLamb D c cl pt i call), ("gamma", fdmGamma D c cl pt i)]

/-- **C10.** On any object reached from construction by any `set_param` calls (raising or not), living
at any address of any heap, for any adaptive differentiation rule `D`: each finite-difference greek
returns (or raises) exactly what `D` gives on the price of freshly built options with the one parameter
replaced, and leaves every object of the heap exactly as it was (the heap afterwards is the old heap
plus the copies). `cl`, `pt` are the price methods; they may be anything that depends on the constructor
parameters only (see `C10_prices_respect`). -/
theorem C10_fdm_greeks {c : Cls} (hc : c ∈ classes) (D : Diff) {cl pt : Attrs → Except PyErr Val}
    (hcl : c.Respects cl) (hpt : c.Respects pt) {kw : Dict} {a₀ : Attrs}
    (h₀ : c.construct kw = (a₀, none)) (ops : List (String × Val)) (h : Heap) (i : ℕ)
    (hi : i < h.length) (hat : h.getD i Attrs.empty = c.runCatch ops a₀) (call : Bool) :
    ∃ d, c.getParams (c.runCatch ops a₀) = .ok d ∧
      List.Forall₂ (fun m r => m.1 = r.1 ∧ ∃ copies, m.2 h = (r.2, h ++ copies))
        (fdMethods D c cl pt i call) (fdGreekSpecs D c cl pt d (c.runCatch ops a₀) call) := by
  have hl := lawful_of_mem hc
  obtain ⟨p, _, hs⟩ := construct_state hl h₀
  obtain ⟨d, hd, _⟩ := getParams_dict hl (runCatch_readable hl ops _ (State.readable hl hs))
  refine ⟨d, hd, ?_⟩
  unfold fdMethods fdGreekSpecs
  refine .cons ⟨rfl, partialAt_harmless hc D hcl hpt hd hi hat _ _ _ _ _ _⟩ <|
    .cons ⟨rfl, partialAt_harmless hc D hcl hpt hd hi hat _ _ _ _ _ _⟩ <|
    .cons ⟨rfl, ?_⟩ <|
    .cons ⟨rfl, partialAt_harmless hc D hcl hpt hd hi hat _ _ _ _ _ _⟩ <|
    .cons ⟨rfl, lamb_harmless hc D hcl hpt hd hi hat _⟩ <|
    .cons ⟨rfl, ?_⟩ .nil
  · exact partialAt_harmless hc D hcl hpt hd hi hat _ _ true _ _ _
  · exact partialAt_harmless hc D hcl hpt hd hi hat _ _ true _ _ _

/-- The hypotheses of `C10_fdm_greeks` on the prices are met by the closed-form methods, and by every
function of the attributes the constructor assigns unconditionally (trees, American approximations). -/
theorem C10_prices_respect {c : Cls} (hc : c ∈ classes) :
    (∀ m ∈ methodsOf c, c.Respects m.run) ∧
    ∀ f : Attrs → Except PyErr Val,
      (∀ a₁ a₂, (∀ x ∈ defs c.body [], a₁ x = a₂ x) → f a₁ = f a₂) → c.Respects f :=
  ⟨fun _ hm => Cls.Respects.of_safe (lawful_of_mem hc) (methods_safe hc hm),
   fun _ hf => Cls.Respects.of_defs (lawful_of_mem hc) hf⟩

/-- `get_params()` of a numeric `GBSOption`. -/
theorem gbs_getParams {a : Attrs} {S K t r b σ : ℝ} (h : IsGBS a (GBS.new S K t r b (some σ))) :
    gbsCls.getParams a = .ok (gbsKw S K t r b (.num σ)) := by
  obtain ⟨hS, hK, ht, hr, hb, ⟨σ', hσ, hσ'⟩, -, -⟩ := h
  simp only [GBS.new, Option.some.injEq] at *
  subst hσ
  simp [Cls.getParams, gbsCls, optionFields, hS, hK, ht, hr, hb, hσ', gbsKw, pure, Except.pure,
    List.mapM_cons, ok_bind]

/-- The fresh prices of a numeric `GBSOption` are those of the model in `Model/GBS.lean`. -/
theorem gbs_freshPrice (S K t r b σ x : ℝ) :
    (K ≠ 0 → gbsCls.freshPrice GBSClass.call.run (gbsKw S K t r b (.num σ)) "S" (.num x)
      = (GBS.new x K t r b (some σ)).call.map .num) ∧
    (K ≠ 0 → gbsCls.freshPrice GBSClass.put.run (gbsKw S K t r b (.num σ)) "S" (.num x)
      = (GBS.new x K t r b (some σ)).put.map .num) ∧
    (K ≠ 0 → gbsCls.freshPrice GBSClass.call.run (gbsKw S K t r b (.num σ)) "sigma" (.num x)
      = (GBS.new S K t r b (some x)).call.map .num) ∧
    (K ≠ 0 → gbsCls.freshPrice GBSClass.put.run (gbsKw S K t r b (.num σ)) "sigma" (.num x)
      = (GBS.new S K t r b (some x)).put.map .num) := by
  refine ⟨fun hK => ?_, fun hK => ?_, fun hK => ?_, fun hK => ?_⟩
  · obtain ⟨a, ha, hg⟩ := isGBS_construct x K t r b σ hK
    unfold Cls.freshPrice
    rw [show gbsCls.drop.foldl Dict.del (Dict.insert (gbsKw S K t r b (.num σ)) "S" (.num x))
      = gbsKw x K t r b (.num σ) by simp [gbsCls, gbsKw, Dict.insert], ha]
    exact (isGBS_methods hg).1
  · obtain ⟨a, ha, hg⟩ := isGBS_construct x K t r b σ hK
    unfold Cls.freshPrice
    rw [show gbsCls.drop.foldl Dict.del (Dict.insert (gbsKw S K t r b (.num σ)) "S" (.num x))
      = gbsKw x K t r b (.num σ) by simp [gbsCls, gbsKw, Dict.insert], ha]
    exact (isGBS_methods hg).2.1
  · obtain ⟨a, ha, hg⟩ := isGBS_construct S K t r b x hK
    unfold Cls.freshPrice
    rw [show gbsCls.drop.foldl Dict.del (Dict.insert (gbsKw S K t r b (.num σ)) "sigma" (.num x))
      = gbsKw S K t r b (.num x) by simp [gbsCls, gbsKw, Dict.insert], ha]
    exact (isGBS_methods hg).1
  · obtain ⟨a, ha, hg⟩ := isGBS_construct S K t r b x hK
    unfold Cls.freshPrice
    rw [show gbsCls.drop.foldl Dict.del (Dict.insert (gbsKw S K t r b (.num σ)) "sigma" (.num x))
      = gbsKw S K t r b (.num x) by simp [gbsCls, gbsKw, Dict.insert], ha]
    exact (isGBS_methods hg).2.1

theorem gbs_call_ok (S K t r b σ : ℝ) : ∃ u, (GBS.new S K t r b (some σ)).call = .ok u :=
  ⟨_, by simp [GBS.call, GBS.new, GBS.checkSigma, GBS.attr, pure, Except.pure, bind, Except.bind]; rfl⟩

/-- The two-point rule `(f(x+h) - f(x-h)) / (2h)`. -/
noncomputable def twoPoint (h : ℝ) : Diff := fun _ _ x0 => match x0 with
  | .num x => .ask (.num (x + h)) fun y1 => .ask (.num (x - h)) fun y2 =>
      match y1, y2 with
      | .num u, .num v => .done (.num ((u - v) / (2 * h)))
      | _, _ => .fail .typeError
  | _ => .fail .typeError

/-- Example for C10: the two-point rule on a GBS call returns the difference quotient of fresh
prices. -/
theorem C10_example (h : ℝ) :
    let a₀ := (gbsCls.construct (gbsKw 100 95 1 0.01 0.02 (.num 0.2))).1
    ∃ u v copies,
      (GBS.new (100 + h) 95 1 0.01 0.02 (some 0.2)).call = .ok u ∧
      (GBS.new (100 - h) 95 1 0.01 0.02 (some 0.2)).call = .ok v ∧
      fdmDelta (twoPoint h) gbsCls GBSClass.call.run GBSClass.put.run 0 true [a₀]
        = (.ok (.num ((u - v) / (2 * h))), a₀ :: copies) := by
  intro a₀
  have hc : gbsCls ∈ classes := by simp [classes]
  obtain ⟨a', ha', hg'⟩ := isGBS_construct 100 95 1 0.01 0.02 0.2 (by norm_num)
  have haa : a₀ = a' := by simp [a₀, ha']
  obtain ⟨d, hd, hall⟩ := C10_fdm_greeks hc (twoPoint h)
    ((C10_prices_respect hc).1 GBSClass.call (by simp [methodsOf, gbsCls, GBSClass.methods]))
    ((C10_prices_respect hc).1 GBSClass.put (by simp [methodsOf, gbsCls, GBSClass.methods]))
    ha' [] [a₀] 0 (by simp) (by simp [Cls.runCatch, haa]) true
  obtain ⟨u, hu⟩ := gbs_call_ok (100 + h) 95 1 0.01 0.02 0.2
  obtain ⟨v, hv⟩ := gbs_call_ok (100 - h) 95 1 0.01 0.02 0.2
  cases hall with
  | cons h1 _ =>
    obtain ⟨-, copies, h1⟩ := h1
    refine ⟨u, v, copies, hu, hv, ?_⟩
    rw [show Cls.runCatch gbsCls [] a' = a' from rfl, gbs_getParams hg'] at hd
    injection hd with hd
    subst hd
    refine h1.trans (congrArg (·, a₀ :: copies) ?_)
    have hS : a' "_S" = some (.num 100) := hg'.S
    simp only [fdSpec, attrOf, Cls.runCatch, List.foldl_nil, hS, ok_bind, if_true, twoPoint,
      Rule.runPure, (gbs_freshPrice 100 95 1 0.01 0.02 0.2 (100 + h)).1 (by norm_num),
      (gbs_freshPrice 100 95 1 0.01 0.02 0.2 (100 - h)).1 (by norm_num)]
    simp [hu, hv, Except.map, Rule.runPure, ok_bind, scale, Val.map₂]

/-! ### C57 -/

/-- The analytic methods of `GBSOption` by greek name. -/
noncomputable def gbsGreekMethods (call : Bool) : List (String × Meth) :=
  [("delta", if call then GBSClass.deltaC else GBSClass.deltaP),
   ("theta", if call then GBSClass.thetaC else GBSClass.thetaP), ("vega", GBSClass.vega),
   ("rho", if call then GBSClass.rhoC else GBSClass.rhoP),
   ("lambda", if call then GBSClass.lambC else GBSClass.lambP), ("gamma", GBSClass.gamma),
   ("CofC", if call then GBSClass.cOfCC else GBSClass.cOfCP)]

/-- **C57, analytic.** For any state of the object: if `greeks(call)` returns, its keys are the
documented ones in order and the value under each key is what the method of that name returns; and it
raises exactly when one of those methods raises. -/
theorem C57_gbs_greeks (call : Bool) (a : Attrs) :
    (∀ d, GBSClass.greeks call a = .ok d →
      List.Forall₂ (fun m e => m.1 = e.1 ∧ m.2.run a = .ok e.2) (gbsGreekMethods call) d) ∧
    ((∃ e, GBSClass.greeks call a = .error e) ↔
      ∃ m ∈ gbsGreekMethods call, ∃ e, m.2.run a = .error e) := by
  unfold GBSClass.greeks gbsGreekMethods
  by_cases hs : isNoneArg a "_sigma" = true
  · constructor
    · intro d h
      rw [if_pos hs] at h
      cases h
    · rw [if_pos hs]
      refine ⟨fun _ => ⟨("vega", GBSClass.vega), by simp, .valueError, ?_⟩, fun _ => ⟨_, rfl⟩⟩
      simp [Meth.run, GBSClass.vega, hs]
  · rw [if_neg hs]
    generalize (if call = true then GBSClass.deltaC else GBSClass.deltaP) = m1
    generalize (if call = true then GBSClass.thetaC else GBSClass.thetaP) = m2
    generalize (if call = true then GBSClass.rhoC else GBSClass.rhoP) = m4
    generalize (if call = true then GBSClass.lambC else GBSClass.lambP) = m5
    generalize (if call = true then GBSClass.cOfCC else GBSClass.cOfCP) = m7
    simp only [List.mem_cons, List.not_mem_nil, or_false, exists_eq_or_imp, exists_eq_left,
      pure_bind]
    rcases h1 : m1.run a with e | v1
    · simp [error_bind]
    rcases h2 : m2.run a with e | v2
    · simp [error_bind, ok_bind]
    rcases h3 : GBSClass.vega.run a with e | v3
    · simp [error_bind, ok_bind]
    rcases h4 : m4.run a with e | v4
    · simp [error_bind, ok_bind]
    rcases h5 : m5.run a with e | v5
    · simp [error_bind, ok_bind]
    rcases h6 : GBSClass.gamma.run a with e | v6
    · simp [error_bind, ok_bind]
    rcases h7 : m7.run a with e | v7
    · simp [error_bind, ok_bind]
    simp only [ok_bind]
    constructor
    · intro d hd
      cases hd
      simp [h1, h2, h3, h4, h5, h6, h7]
    · simp [pure, Except.pure]

/-- The `greeks()` dictionary of the specification: all six, stopping at the first that raises. -/
def firstError : List (String × Except PyErr Val) → Except PyErr Dict
  | [] => .ok []
  | (n, .ok v) :: l => match firstError l with
    | .ok d => .ok ((n, v) :: d)
    | .error e => .error e
  | (_, .error e) :: _ => .error e

theorem firstError_eq (n1 n2 n3 n4 n5 n6 : String) (r1 r2 r3 r4 r5 r6 : Except PyErr Val) :
    firstError [(n1, r1), (n2, r2), (n3, r3), (n4, r4), (n5, r5), (n6, r6)] = (do
      let v1 ← r1; let v2 ← r2; let v3 ← r3; let v4 ← r4; let v5 ← r5; let v6 ← r6
      return [(n1, v1), (n2, v2), (n3, v3), (n4, v4), (n5, v5), (n6, v6)]) := by
  rcases r1 with e | v1
  · rfl
  rcases r2 with e | v2
  · rfl
  rcases r3 with e | v3
  · rfl
  rcases r4 with e | v4
  · rfl
  rcases r5 with e | v5
  · rfl
  rcases r6 with e | v6
  · rfl
  rfl

theorem firstError_spec : ∀ l : List (String × Except PyErr Val),
    (∀ d, firstError l = .ok d → List.Forall₂ (fun m e => m.1 = e.1 ∧ m.2 = .ok e.2) l d) ∧
    ((∃ e, firstError l = .error e) ↔ ∃ m ∈ l, ∃ e, m.2 = .error e) := by
  intro l
  induction l with
  | nil => simp [firstError]
  | cons m l ih =>
    obtain ⟨n, r⟩ := m
    rcases r with e | v
    · simp [firstError]
    · rcases hl : firstError l with e | d
      · simp only [firstError, hl, List.mem_cons, exists_eq_or_imp]
        refine ⟨by simp, ?_⟩
        have := ih.2
        simp only [hl] at this
        simp [← this]
      · simp only [firstError, hl, List.mem_cons, exists_eq_or_imp]
        have := ih.2
        simp only [hl] at this
        refine ⟨?_, by simp [← this]⟩
        intro d' hd'
        cases hd'
        exact .cons ⟨rfl, rfl⟩ (ih.1 d hl)

theorem harmless_greeks {c : Cls} (hc : c ∈ classes) (D : Diff) {cl pt : Attrs → Except PyErr Val}
    (hcl : c.Respects cl) (hpt : c.Respects pt) {h : Heap} {i : ℕ} {a : Attrs} {d : Dict}
    (hd : c.getParams a = .ok d) (hi : i < h.length) (ha : h.getD i Attrs.empty = a) (call : Bool) :
    Harmless (fdmGreeks D c cl pt i call) h (firstError (fdGreekSpecs D c cl pt d a call)) := by
  have step : ∀ {h' : Heap} (ex : Heap), (i < h'.length ∧ h'.getD i Attrs.empty = a) →
      (i < (h' ++ ex).length ∧ (h' ++ ex).getD i Attrs.empty = a) := fun {h'} ex hh =>
    ⟨Nat.lt_of_lt_of_le hh.1 (by simp), by rw [getD_append_left hh.1, hh.2]⟩
  unfold fdmGreeks fdGreekSpecs
  rw [firstError_eq]
  have H := And.intro hi ha
  refine Harmless.bind (partialAt_harmless hc D hcl hpt hd H.1 H.2 _ _ _ _ _ _) (fun _ ex _ => ?_)
  replace H := step ex H
  refine Harmless.bind (partialAt_harmless hc D hcl hpt hd H.1 H.2 _ _ _ _ _ _) (fun _ ex _ => ?_)
  replace H := step ex H
  refine Harmless.bind (partialAt_harmless hc D hcl hpt hd H.1 H.2 _ _ true _ _ _) (fun _ ex _ => ?_)
  replace H := step ex H
  refine Harmless.bind (partialAt_harmless hc D hcl hpt hd H.1 H.2 _ _ _ _ _ _) (fun _ ex _ => ?_)
  replace H := step ex H
  refine Harmless.bind (lamb_harmless hc D hcl hpt hd H.1 H.2 _) (fun _ ex _ => ?_)
  replace H := step ex H
  refine Harmless.bind (partialAt_harmless hc D hcl hpt hd H.1 H.2 _ _ true _ _ _) (fun _ ex _ => ?_)
  exact ⟨[], by simp; rfl⟩

/-- **C57, finite differences.** On any reachable object at any address of any heap, with any
differentiation rule: `greeks(call)` changes no existing object; if it returns, its keys are the
documented ones in order and each value is what the individual method returns when called on the same
heap; it raises exactly when one of the individual methods raises. -/
theorem C57_fdm_greeks {c : Cls} (hc : c ∈ classes) (D : Diff) {cl pt : Attrs → Except PyErr Val}
    (hcl : c.Respects cl) (hpt : c.Respects pt) {kw : Dict} {a₀ : Attrs}
    (h₀ : c.construct kw = (a₀, none)) (ops : List (String × Val)) (h : Heap) (i : ℕ)
    (hi : i < h.length) (hat : h.getD i Attrs.empty = c.runCatch ops a₀) (call : Bool) :
    ∃ copies, (fdmGreeks D c cl pt i call h).2 = h ++ copies ∧
    (∀ d, (fdmGreeks D c cl pt i call h).1 = .ok d →
      List.Forall₂ (fun m e => m.1 = e.1 ∧ (m.2 h).1 = .ok e.2) (fdMethods D c cl pt i call) d) ∧
    ((∃ e, (fdmGreeks D c cl pt i call h).1 = .error e) ↔
      ∃ m ∈ fdMethods D c cl pt i call, ∃ e, (m.2 h).1 = .error e) := by
  obtain ⟨d, hd, hall⟩ := C10_fdm_greeks hc D hcl hpt h₀ ops h i hi hat call
  obtain ⟨copies, hg⟩ := harmless_greeks hc D hcl hpt hd hi hat call
  refine ⟨copies, by rw [hg], ?_⟩
  rw [hg]
  simp only
  generalize fdGreekSpecs D c cl pt d (c.runCatch ops a₀) call = specs at hall
  generalize fdMethods D c cl pt i call = ms at hall
  obtain ⟨h1, h2⟩ := firstError_spec specs
  refine ⟨fun d' hd' => ?_, h2.trans ?_⟩
  · have := h1 d' hd'
    clear h1 h2 hd' hg
    induction hall generalizing d' with
    | nil => cases this; exact .nil
    | cons hx _ ih =>
      cases this with
      | cons hy hys =>
        obtain ⟨e1, cp, e2⟩ := hx
        exact .cons ⟨e1.trans hy.1, by rw [e2]; exact hy.2⟩ (ih _ hys)
  · clear h1 h2 hg
    induction hall with
    | nil => simp
    | cons hx _ ih =>
      obtain ⟨e1, cp, e2⟩ := hx
      simp only [List.mem_cons, exists_eq_or_imp, e2, ih]

/-- Example for C57: on an option priced with `sigma`, all seven analytic greeks exist. -/
theorem C57_example : ∃ d, GBSClass.greeks true
      (gbsCls.construct (gbsKw 100 95 1 0.01 0.02 (.num 0.2))).1 = .ok d ∧ d.length = 7 ∧
    d.map (·.1) = ["delta", "theta", "vega", "rho", "lambda", "gamma", "CofC"] := by
  obtain ⟨a, ha, hg⟩ := isGBS_construct 100 95 1 0.01 0.02 0.2 (by norm_num)
  rw [ha]
  have h := C57_gbs_greeks true a
  rcases hr : GBSClass.greeks true a with e | d
  · exfalso
    have := h.2.mp ⟨e, hr⟩
    have M := isGBS_methods hg
    simp only [gbsGreekMethods, List.mem_cons, List.not_mem_nil, or_false, exists_eq_or_imp,
      exists_eq_left, if_true, M.2.2.1, M.2.2.2.2.1, M.2.2.2.2.2.2.1, M.2.2.2.2.2.2.2.1,
      M.2.2.2.2.2.2.2.2.2.1, M.2.2.2.2.2.2.2.2.2.2.2.1, M.2.2.2.2.2.2.2.2.2.2.2.2.1] at this
    simp [GBS.new, GBS.delta, GBS.theta, GBS.vega, GBS.rho, GBS.lamb, GBS.gamma, GBS.cOfC, GBS.call,
      GBS.checkSigma, GBS.attr, pure, Except.pure, Except.map, ok_bind] at this
    obtain ⟨e, he⟩ := this
    split_ifs at he
  · have h1 := h.1 d hr
    have hk : d.map (·.1) = (gbsGreekMethods true).map (·.1) := by
      clear h hr
      generalize gbsGreekMethods true = ms at h1
      induction h1 with
      | nil => rfl
      | cons hx _ ih => simp [ih, hx.1]
    refine ⟨d, rfl, ?_, by rw [hk]; rfl⟩
    have := congrArg List.length hk
    simpa [gbsGreekMethods] using this

/-! ### C11 -/

/-- Keyword arguments of a `Black76Option`. -/
def b76Kw (FT K t r σ : Val) : Dict := [("FT", FT), ("K", K), ("t", t), ("r", r), ("sigma", σ)]

/-- Keyword arguments of a `GBSOption` with arbitrary values. -/
def gbsKwV (S K t r b σ : Val) : Dict :=
  [("S", S), ("K", K), ("t", t), ("r", r), ("b", b), ("sigma", σ)]

theorem bind_b76 (FT K t r σ : Val) :
    ∃ p, bindArgs black76Cls.sig (b76Kw FT K t r σ) = .ok p ∧ p "FT" = some FT ∧ p "K" = some K ∧
      p "t" = some t ∧ p "r" = some r ∧ p "sigma" = some σ := by
  simp [b76Kw, bindArgs, black76Cls, req, dflt, List.lookup]

theorem bind_gbs (S K t r b σ : Val) :
    ∃ p, bindArgs gbsCls.sig (gbsKwV S K t r b σ) = .ok p ∧ p "S" = some S ∧ p "K" = some K ∧
      p "t" = some t ∧ p "r" = some r ∧ p "b" = some b ∧ p "sigma" = some σ := by
  simp [gbsKwV, bindArgs, gbsCls, req, dflt, List.lookup]

/-- The guarded tail of the constructor looks at the argument `sigma` only. -/
theorem exec_initD_congr {p q : Attrs} (h : p "sigma" = q "sigma") (a : Attrs) :
    exec p GBSClass.initD a = exec q GBSClass.initD a := by
  have hg : isNoneArg p "sigma" = isNoneArg q "sigma" := by simp [isNoneArg, h]
  have he : ∀ a, ((Expr.log (.pdiv GBSClass.S GBSClass.K) + (GBSClass.b + GBSClass.sigma * GBSClass.sigma
      / 2) * GBSClass.t) / (GBSClass.sigma * Expr.sqrt GBSClass.t)).eval p a =
      ((Expr.log (.pdiv GBSClass.S GBSClass.K) + (GBSClass.b + GBSClass.sigma * GBSClass.sigma
      / 2) * GBSClass.t) / (GBSClass.sigma * Expr.sqrt GBSClass.t)).eval q a := fun a => rfl
  have he2 : ∀ a, (GBSClass.d1 - GBSClass.sigma * Expr.sqrt GBSClass.t).eval p a =
      (GBSClass.d1 - GBSClass.sigma * Expr.sqrt GBSClass.t).eval q a := fun a => rfl
  simp only [GBSClass.initD, exec, hg, he, he2]

/-- **C11 (prices).** For arbitrary values (numbers, arrays, `None`, strings), `Black76Option(FT, K, t,
r, sigma)` and `GBSOption(FT, K, t, r, 0, sigma)` are the same object: same attributes, or the same
exception at the same point. Hence all prices and greeks agree. -/
theorem C11_is_gbs (FT K t r σ : Val) :
    black76Cls.construct (b76Kw FT K t r σ) = gbsCls.construct (gbsKwV FT K t r (.num 0) σ) := by
  obtain ⟨p, hp, h1, h2, h3, h4, h5⟩ := bind_b76 FT K t r σ
  obtain ⟨q, hq, g1, g2, g3, g4, g5, g6⟩ := bind_gbs FT K t r (.num 0) σ
  unfold Cls.construct Cls.init
  rw [hp, hq]
  simp only [black76Cls, gbsCls, optionInit, assignParams, List.map_cons, List.map_nil,
    List.cons_append, List.nil_append, exec, Expr.eval, h1, h2, h3, h4, h5, g1, g2, g3, g4, g5, g6]
  exact exec_initD_congr (h5.trans g6.symm) _

/-- The statement leaves attribute `x` alone or stores the literal `y` in it. -/
def keepsLit (x : String) (y : ℝ) : Stmt → Prop
  | .assign x' e => x' = x → e = .lit y
  | .assignIf _ x' _ => x' ≠ x
  | .noArrays _ => True

theorem exec_keepsLit (p : Attrs) (x : String) (y : ℝ) : ∀ (body : List Stmt) (a : Attrs),
    (∀ s ∈ body, keepsLit x y s) → (a x = none ∨ a x = some (.num y)) →
    ((exec p body a).1 x = none ∨ (exec p body a).1 x = some (.num y)) := by
  intro body
  induction body with
  | nil => intro a _ h; exact h
  | cons s l ih =>
    intro a hb h
    have hs := hb s (by simp)
    have hl := fun s' hs' => hb s' (List.mem_cons_of_mem _ hs')
    cases s with
    | assign x' e =>
      simp only [exec]
      split
      · rename_i v hv
        refine ih _ hl ?_
        by_cases hx : x' = x
        · rw [hs hx] at hv
          simp only [Expr.eval, Except.ok.injEq] at hv
          subst hx hv
          exact Or.inr (by simp [Attrs.set])
        · simpa [Attrs.set, Function.update_of_ne (Ne.symm hx)] using h
      · exact h
    | assignIf q x' e =>
      have hx : x ≠ x' := Ne.symm hs
      simp only [exec]
      split
      · exact ih _ hl h
      · split
        · exact ih _ hl (by simpa [Attrs.set, Function.update_of_ne hx] using h)
        · exact h
    | noArrays ps =>
      simp only [exec]
      split
      · exact h
      · exact ih _ hl h

/-- **C11 (carry).** After any history of `set_param` calls, raising or not and including attempts to
set `b`, the cost of carry is 0. -/
theorem C11_carry_zero {kw : Dict} {a₀ : Attrs} (h₀ : black76Cls.construct kw = (a₀, none))
    (ops : List (String × Val)) : black76Cls.runCatch ops a₀ "_b" = some (.num 0) := by
  have hl : black76Cls.Lawful := lawful_of_mem (by simp [classes])
  have hk : ∀ s ∈ black76Cls.body, keepsLit "_b" 0 s := by
    simp [black76Cls, assignParams, GBSClass.initD, keepsLit]
  obtain ⟨p, hb, hs⟩ := construct_state hl h₀
  have key : ∀ (ops : List (String × Val)) (a : Attrs), black76Cls.Readable a →
      (a "_b" = none ∨ a "_b" = some (.num 0)) →
      (black76Cls.runCatch ops a "_b" = none ∨ black76Cls.runCatch ops a "_b" = some (.num 0)) := by
    intro ops
    induction ops with
    | nil => intro a _ h; exact h
    | cons op ops ih =>
      intro a hr h
      refine ih _ (setParam_readable hl hr _ _) ?_
      beta_reduce
      rcases setParam_cases hl hr op.1 op.2 with e | ⟨_, e⟩
      · rw [e]; exact h
      · rw [e]; exact exec_keepsLit _ _ _ _ _ hk h
  have h1 := key ops a₀ (State.readable hl hs) (by
    unfold Cls.construct Cls.init at h₀
    rw [hb] at h₀
    have := exec_keepsLit p "_b" 0 black76Cls.body Attrs.empty hk (Or.inl rfl)
    simp only at h₀
    rwa [h₀] at this)
  have h2 := runCatch_readable hl ops _ (State.readable hl hs) ("b", "_b") (by simp [black76Cls])
  rcases h1 with h1 | h1
  · simp [h1] at h2
  · exact h1

/-- **C11 (setting b).** `set_param("b", v)` on an option whose history contains no uncaught failure
returns normally and changes no parameter, price or greek. -/
theorem C11_set_b {kw : Dict} {a₀ : Attrs} (h₀ : black76Cls.construct kw = (a₀, none))
    (ops : List (String × Val)) {a : Attrs} (h : black76Cls.runAll ops a₀ = (a, none)) (v : Val) :
    ∃ a', black76Cls.setParam "b" v a = (a', none) ∧ black76Cls.getParams a' = black76Cls.getParams a ∧
      ∀ m ∈ GBSClass.methods, m.run a' = m.run a := by
  have hc : black76Cls ∈ classes := by simp [classes]
  have hl := lawful_of_mem hc
  obtain ⟨p, hb, hs⟩ := construct_state hl h₀
  obtain ⟨p', hb', hs'⟩ := runAll_state hl ops kw p a₀ a hb hs h
  have hd := setParam_drop hl (State.readable hl hs') (x := "b") (by simp [black76Cls]) v
  rw [State.paramsOf hl hs'] at hd
  have he : (exec p' black76Cls.body a).2 = none := by
    obtain ⟨_, b, hb⟩ := hs'
    rw [State.error_indep hl p' a b, hb]
  have hst : black76Cls.State p' (exec p' black76Cls.body a).1 := ⟨hs'.1, a, Prod.ext rfl he⟩
  refine ⟨_, hd.trans (Prod.ext rfl he), Cls.Respects.getParams hl p' _ _ hst hs', fun m hm => ?_⟩
  exact Cls.Respects.of_safe hl (methods_safe hc (by simpa [methodsOf, black76Cls] using hm)) p' _ _ hst hs'

/-- **C11 (finite differences), the part that holds.** For numeric parameters, the function that the
finite-difference `theta`, `vega` and `rho` differentiate is the price of `GBSOption` with `b = 0`.
Missing: `delta`, `gamma` and `lamb`, which always raise, see `C11_fdm_delta_raises`. -/
theorem C11_fdm_partial (FT K t r σ x : ℝ) (m : Meth) (wrt : String)
    (hw : wrt ∈ ["t", "sigma", "r"]) :
    black76Cls.freshPrice m.run [("FT", .num FT), ("K", .num K), ("t", .num t), ("r", .num r),
      ("b", .num 0), ("sigma", .num σ)] wrt (.num x)
    = gbsCls.freshPrice m.run (gbsKw FT K t r 0 (.num σ)) wrt (.num x) := by
  unfold Cls.freshPrice
  simp only [List.mem_cons, List.not_mem_nil, or_false] at hw
  rcases hw with rfl | rfl | rfl
  · rw [show black76Cls.drop.foldl Dict.del (Dict.insert _ _ _)
        = b76Kw (.num FT) (.num K) (.num x) (.num r) (.num σ) by
        simp [black76Cls, Dict.insert, Dict.del, b76Kw],
      show gbsCls.drop.foldl Dict.del (Dict.insert _ _ _)
        = gbsKwV (.num FT) (.num K) (.num x) (.num r) (.num 0) (.num σ) by
        simp [gbsCls, Dict.insert, gbsKw, gbsKwV], C11_is_gbs]
  · rw [show black76Cls.drop.foldl Dict.del (Dict.insert _ _ _)
        = b76Kw (.num FT) (.num K) (.num t) (.num r) (.num x) by
        simp [black76Cls, Dict.insert, Dict.del, b76Kw],
      show gbsCls.drop.foldl Dict.del (Dict.insert _ _ _)
        = gbsKwV (.num FT) (.num K) (.num t) (.num r) (.num 0) (.num x) by
        simp [gbsCls, Dict.insert, gbsKw, gbsKwV], C11_is_gbs]
  · rw [show black76Cls.drop.foldl Dict.del (Dict.insert _ _ _)
        = b76Kw (.num FT) (.num K) (.num t) (.num x) (.num σ) by
        simp [black76Cls, Dict.insert, Dict.del, b76Kw],
      show gbsCls.drop.foldl Dict.del (Dict.insert _ _ _)
        = gbsKwV (.num FT) (.num K) (.num t) (.num x) (.num 0) (.num σ) by
        simp [gbsCls, Dict.insert, gbsKw, gbsKwV], C11_is_gbs]

/-- **C11 fails** for the finite-difference `delta`, `gamma` and `lamb`: on every reachable
`Black76Option`, with any differentiation rule that evaluates the function at least once, they raise
`TypeError` (the code sets a parameter `S` which the constructor does not have). -/
theorem C11_fdm_delta_raises (D : Diff)
    (hD : ∀ n step x, ∃ y k, D n step x = .ask y k)
    {kw : Dict} {a₀ : Attrs} (h₀ : black76Cls.construct kw = (a₀, none)) (ops : List (String × Val))
    (h : Heap) (i : ℕ) (hi : i < h.length)
    (hat : h.getD i Attrs.empty = black76Cls.runCatch ops a₀) (call : Bool) :
    (fdmDelta D black76Cls GBSClass.call.run GBSClass.put.run i call h).1 = .error .typeError ∧
    (fdmGamma D black76Cls GBSClass.call.run GBSClass.put.run i h).1 = .error .typeError ∧
    ∃ e, (fdmLamb D black76Cls GBSClass.call.run GBSClass.put.run i call h).1 = .error e := by
  have hc : black76Cls ∈ classes := by simp [classes]
  have hl := lawful_of_mem hc
  obtain ⟨p, hb, hs⟩ := construct_state hl h₀
  have hr := runCatch_readable hl ops _ (State.readable hl hs)
  have hR : ∀ m ∈ GBSClass.methods, black76Cls.Respects m.run := fun m hm =>
    Cls.Respects.of_safe hl (methods_safe hc (by simpa [methodsOf, black76Cls] using hm))
  obtain ⟨d, hd, hdk, -⟩ := getParams_dict hl hr
  have hfresh : ∀ pr x, black76Cls.freshPrice pr d "S" x = .error .typeError := by
    intro pr x
    unfold Cls.freshPrice Cls.construct Cls.init
    rw [bindArgs_unknown (x := "S") _ (by simp [black76Cls, req, dflt])]
    rw [keys_drops, keys_insert]
    exact ⟨by simp [black76Cls], Or.inl rfl⟩
  have hS := hr ("FT", "_S") (by simp [black76Cls])
  obtain ⟨v, hv⟩ := Option.isSome_iff_exists.mp hS
  have hspec : ∀ pr n step k, fdSpec D black76Cls pr d (attrOf (black76Cls.runCatch ops a₀) "_S") "S" n
      step k = .error .typeError := by
    intro pr n step k
    obtain ⟨y, kk, hy⟩ := hD n step v
    simp only [fdSpec, attrOf, hv, ok_bind, hy, Rule.runPure, hfresh, error_bind]
  have hcl := hR GBSClass.call (by simp [GBSClass.methods])
  have hpt := hR GBSClass.put (by simp [GBSClass.methods])
  refine ⟨?_, ?_, ?_⟩
  · obtain ⟨cp, h1⟩ := partialAt_harmless hc D hcl hpt hd hi hat "S" "_S" call 1 none 1
    unfold fdmDelta
    rw [h1, hspec]
  · obtain ⟨cp, h1⟩ := partialAt_harmless hc D hcl hpt hd hi hat "S" "_S" true 2 none 1
    unfold fdmGamma
    rw [h1, hspec]
  · obtain ⟨cp, h1⟩ := lamb_harmless hc D hcl hpt hd hi hat call
    rw [h1]
    unfold lambSpec
    rcases (if call = true then GBSClass.call.run else GBSClass.put.run)
      (black76Cls.runCatch ops a₀) with e | w
    · exact ⟨e, rfl⟩
    · exact ⟨.typeError, by simp only [ok_bind, hspec, error_bind]⟩

/-- Example for C11: a `Black76Option` on which someone tried to set a carry of 0.1. -/
theorem C11_example :
    let a₀ := (black76Cls.construct (b76Kw (.num 100) (.num 95) (.num 1) (.num 0.01) (.num 0.2))).1
    GBSClass.call.run (black76Cls.runCatch [("b", .num 0.1)] a₀)
      = (GBS.new 100 95 1 0.01 0 (some 0.2)).call.map .num := by
  intro a₀
  obtain ⟨a', ha', hg⟩ := isGBS_construct 100 95 1 0.01 0 0.2 (by norm_num)
  have h : black76Cls.construct (b76Kw (.num 100) (.num 95) (.num 1) (.num 0.01) (.num 0.2))
      = (a', none) := (C11_is_gbs _ _ _ _ _).trans ha'
  obtain ⟨a'', h1, h2, h3⟩ := C11_set_b h [] rfl (.num 0.1)
  have haa : a₀ = a' := by simp only [a₀, h]
  rw [show black76Cls.runCatch [("b", .num 0.1)] a₀ = a'' by
    simp only [Cls.runCatch, List.foldl_cons, List.foldl_nil, haa, h1],
    h3 GBSClass.call (by simp [GBSClass.methods])]
  exact (isGBS_methods hg).1

/-! ### C12 -/

/-- Python positional call `C(*vs)`: the values go to the parameters in order; too many raise. -/
noncomputable def constructPos (c : Cls) (vs : List Val) : Attrs × Option PyErr :=
  if c.sig.length < vs.length then (Attrs.empty, some .typeError)
  else c.construct ((c.sig.map (·.1)).zip vs)

/-- The classes whose `repr` is faithful. -/
noncomputable def faithful : List Cls :=
  [gbsCls, bsCls, msCls, kirkCls, crrCls, jrCls, trinomialCls, maxCls, minCls, rgwCls, bawCls,
   bsAmericanCls]

theorem zip_lookup (d : Dict) : (d.map (·.1)).zip (d.map (·.2)) = d := by
  induction d with
  | nil => rfl
  | cons x d ih => simp [ih]

/-- **C12, part that holds.** For twelve of the sixteen classes: after any successful history,
`repr(option)` shows the class name and values such that calling that class positionally on the values
gives an option with the same `get_params()`, and the same prices and greeks.
Missing: the other four classes, where it is false, see `C12_tian_name`, `C12_spread_name`,
`C12_allTypes_order`, `C12_black76_extra`. -/
theorem C12_repr_partial {c : Cls} (hc : c ∈ faithful) {kw : Dict} {a₀ : Attrs}
    (h₀ : c.construct kw = (a₀, none)) (ops : List (String × Val)) {a : Attrs}
    (h : c.runAll ops a₀ = (a, none)) :
    ∃ vs a', c.repr a = .ok (c.pyName, vs) ∧ constructPos c vs = (a', none) ∧
      c.getParams a' = c.getParams a ∧ ∀ m ∈ methodsOf c, m.run a' = m.run a := by
  have hcl : c ∈ classes := by
    simp only [faithful, classes, List.mem_cons, List.not_mem_nil, or_false] at hc ⊢
    tauto
  have hshape : c.name = c.pyName ∧ c.fields.map (·.1) = c.sig.map (·.1) ∧ c.drop = [] := by
    simp only [faithful, List.mem_cons, List.not_mem_nil, or_false] at hc
    rcases hc with rfl | rfl | rfl | rfl | rfl | rfl | rfl | rfl | rfl | rfl | rfl | rfl <;>
      exact ⟨rfl, rfl, rfl⟩
  have hl := lawful_of_mem hcl
  obtain ⟨p, hb, hs⟩ := construct_state hl h₀
  obtain ⟨p', hb', hs'⟩ := runAll_state hl ops kw p a₀ a hb hs h
  obtain ⟨d, hd, hk, hlk⟩ := getParams_dict hl (State.readable hl hs')
  rw [State.paramsOf hl hs'] at hlk
  have hz : (c.sig.map (·.1)).zip (d.map (·.2)) = d := by
    rw [← hshape.2.1, ← hk, zip_lookup]
  have hbind : bindArgs c.sig d = .ok p' := by
    refine bindArgs_of_lookup hs'.1 ?_ hlk
    intro k hk'
    rwa [hk, hshape.2.1] at hk'
  obtain ⟨a', hc', hs''⟩ := construct_of_state hl hbind hs'
  have hlen : d.length = c.sig.length := by
    have := congrArg List.length (hk.trans hshape.2.1)
    simpa using this
  refine ⟨d.map (·.2), a', ?_, ?_, Cls.Respects.getParams hl p' a' a hs'' hs', fun m hm => ?_⟩
  · simp [Cls.repr, hd, ok_bind, hshape.1, pure, Except.pure]
  · unfold constructPos
    rw [if_neg (by simp [hlen]), hz, hc']
  · exact Cls.Respects.of_safe hl (methods_safe hcl hm) p' a' a hs'' hs'

/-- **C12 fails**: `repr` of a `TIANBinomialTreeOption` names another class. -/
theorem C12_tian_name {a : Attrs} {n : String} {vs : List Val} (h : tianCls.repr a = .ok (n, vs)) :
    n = "CRRBinomialTreeOption" ∧ n ≠ tianCls.pyName := by
  unfold Cls.repr at h
  rcases hg : tianCls.getParams a with e | d
  · rw [hg] at h; cases h
  · rw [hg] at h; cases h; exact ⟨rfl, by decide⟩

/-- **C12 fails**: `repr` of a `BionomialSpreadOption` says `BionomialMinOption`, a class with the same
signature and a different payoff. -/
theorem C12_spread_name {a : Attrs} {n : String} {vs : List Val}
    (h : spreadCls.repr a = .ok (n, vs)) :
    n = minCls.pyName ∧ n ≠ spreadCls.pyName ∧ minCls.sig = spreadCls.sig := by
  unfold Cls.repr at h
  rcases hg : spreadCls.getParams a with e | d
  · rw [hg] at h; cases h
  · rw [hg] at h; cases h; exact ⟨rfl, by decide, rfl⟩

/-- **C12 fails**: `repr` of a `Black76Option` lists six values for a constructor of five, so the
positional call raises `TypeError`. -/
theorem C12_black76_extra {kw : Dict} {a₀ : Attrs} (h₀ : black76Cls.construct kw = (a₀, none)) :
    ∃ vs, black76Cls.repr a₀ = .ok ("Black76Option", vs) ∧ vs.length = 6 ∧
      (constructPos black76Cls vs).2 = some .typeError := by
  have hl : black76Cls.Lawful := lawful_of_mem (by simp [classes])
  obtain ⟨p, hb, hs⟩ := construct_state hl h₀
  obtain ⟨d, hd, hk, -⟩ := getParams_dict hl (State.readable hl hs)
  have hlen : d.length = 6 := by
    have := congrArg List.length hk
    simpa [black76Cls] using this
  refine ⟨d.map (·.2), ?_, by simpa using hlen, ?_⟩
  · rw [Cls.repr, hd]; rfl
  · unfold constructPos
    rw [if_pos (by simp [hlen, black76Cls])]

/-- **C12 fails** for `BionomialSpreadAllTypes`: the name shown is that of another class, and the values
are not in constructor order: read positionally, the strike `K` becomes the maturity `t`. -/
theorem C12_allTypes_order {kw : Dict} {a₀ : Attrs} (h₀ : allTypesCls.construct kw = (a₀, none)) :
    ∃ n vs, allTypesCls.repr a₀ = .ok (n, vs) ∧ n ≠ allTypesCls.pyName ∧
      ((allTypesCls.sig.map (·.1)).zip vs).lookup "t" = a₀ "_K" := by
  have hl : allTypesCls.Lawful := lawful_of_mem (by simp [classes])
  obtain ⟨p, hb, hs⟩ := construct_state hl h₀
  have hr := State.readable hl hs
  have hg := getParams_eq allTypesCls a₀ hr
  obtain ⟨k, hk⟩ := Option.isSome_iff_exists.mp (hr ("K", "_K") (by simp [allTypesCls]))
  refine ⟨"BionomialSpreadOption", _, by rw [Cls.repr, hg]; rfl, by decide, ?_⟩
  · simp [allTypesCls, req, dflt, List.lookup] at *
    simp [hk]

/-- Example for C12. -/
theorem C12_example : ∃ a', gbsCls.repr (gbsCls.construct (gbsKw 100 95 1 0.01 0.02 (.num 0.2))).1
      = .ok ("GBSOption", [.num 100, .num 95, .num 1, .num 0.01, .num 0.02, .num 0.2]) ∧
    constructPos gbsCls [.num 100, .num 95, .num 1, .num 0.01, .num 0.02, .num 0.2] = (a', none) := by
  obtain ⟨a, ha, hg⟩ := isGBS_construct 100 95 1 0.01 0.02 0.2 (by norm_num)
  refine ⟨a, ?_, ?_⟩
  · rw [ha, Cls.repr, gbs_getParams hg]; rfl
  · rw [constructPos, if_neg (by simp [gbsCls])]
    exact ha

end Verif.Props
