import Verif.Lemmas.ObjState
import Verif.Lemmas.GBSObj

/-!
Object-level properties: C07 (missing volatility), C08 (coherence), C09 (failed `set_param`),
C10 (finite differences work on copies), C11 (Black-76), C12 (`repr`), C57 (`greeks()`).

`classes` is the list of all option classes that inherit `set_param`; `construct`, `setParam`,
`getParams` are the Python operations on arbitrary objects and arbitrary values.
-/
set_option linter.unusedSimpArgs false
namespace Verif.Props
open Verif GBSClass

/-- The three classes that share the closed-form methods of `GBSOption`. -/
noncomputable def vanilla : List Cls := [gbsCls, bsCls, black76Cls]

theorem vanilla_mem {c : Cls} (h : c ∈ vanilla) : c ∈ classes := by
  simp only [vanilla, classes, List.mem_cons, List.not_mem_nil, or_false] at h ⊢
  tauto

/-! ### C07 -/

theorem args_some {c : Cls} {p : Attrs} (h : IsArgs c.sig p) (s : String)
    (hs : s ∈ c.sig.map (·.1)) : ∃ v, p s = some v :=
  Option.isSome_iff_exists.mp ((h s).mpr hs)

theorem gbs_none_ok {c : Cls} (hc : c ∈ vanilla) {p : Attrs} (hp : IsArgs c.sig p)
    (hn : p "sigma" = some .none) (a : Attrs) : (exec p c.body a).2 = none := by
  simp only [vanilla, List.mem_cons, List.not_mem_nil, or_false] at hc
  rcases hc with rfl | rfl | rfl
  · obtain ⟨S, hS⟩ := args_some hp "S" (by decide +kernel)
    obtain ⟨K, hK⟩ := args_some hp "K" (by decide +kernel)
    obtain ⟨t, ht⟩ := args_some hp "t" (by decide +kernel)
    obtain ⟨r, hr⟩ := args_some hp "r" (by decide +kernel)
    obtain ⟨b, hb⟩ := args_some hp "b" (by decide +kernel)
    simp [gbsCls, optionInit, assignParams, GBSClass.initD, exec, Expr.eval, hS, hK, ht, hr, hb, hn,
      isNoneArg]
  · obtain ⟨S, hS⟩ := args_some hp "S" (by decide +kernel)
    obtain ⟨K, hK⟩ := args_some hp "K" (by decide +kernel)
    obtain ⟨t, ht⟩ := args_some hp "t" (by decide +kernel)
    obtain ⟨r, hr⟩ := args_some hp "r" (by decide +kernel)
    obtain ⟨b, hb⟩ := args_some hp "b" (by decide +kernel)
    simp [bsCls, gbsCls, optionInit, assignParams, GBSClass.initD, exec, Expr.eval, hS, hK, ht, hr,
      hb, hn, isNoneArg]
  · obtain ⟨S, hS⟩ := args_some hp "FT" (by decide +kernel)
    obtain ⟨K, hK⟩ := args_some hp "K" (by decide +kernel)
    obtain ⟨t, ht⟩ := args_some hp "t" (by decide +kernel)
    obtain ⟨r, hr⟩ := args_some hp "r" (by decide +kernel)
    simp [black76Cls, assignParams, GBSClass.initD, exec, Expr.eval, hS, hK, ht, hr, hn,
      isNoneArg]

/-- Every price and greek method refuses an object whose `_sigma` is `None`, whatever else it holds
(in particular whatever `_d1`, `_d2` it cached). -/
theorem C07_none_refused (a : Attrs) (h : a "_sigma" = some .none) (m : Meth)
    (hm : m ∈ GBSClass.methods) : m.run a = .error .valueError := by
  have hn : m.needs = ["_sigma"] := by
    simp only [methods, List.mem_cons, List.not_mem_nil, or_false] at hm
    rcases hm with rfl | rfl | rfl | rfl | rfl | rfl | rfl | rfl | rfl | rfl | rfl | rfl | rfl | rfl
      <;> rfl
  simp [Meth.run, hn, isNoneArg, h]

/-- **C07.** For every way of building a `GBSOption`, `BlackScholesOption` or `Black76Option` and every
history of `set_param` calls with arbitrary names and values (the user catching exceptions),
`set_param("sigma", None)` returns normally, `get_params()` then shows `sigma=None`, and every price
and greek method and the `greeks()` dictionary raise `ValueError`. -/
theorem C07_missing_sigma {c : Cls} (hc : c ∈ vanilla) {kw : Dict} {a₀ : Attrs}
    (h₀ : c.construct kw = (a₀, none)) (ops : List (String × Val)) :
    let a := c.runCatch ops a₀
    ∃ a', c.setParam "sigma" .none a = (a', none) ∧
      (∃ d, c.getParams a' = .ok d ∧ d.lookup "sigma" = some .none) ∧
      (∀ m ∈ GBSClass.methods, m.run a' = .error .valueError) ∧
      ∀ call, GBSClass.greeks call a' = .error .valueError := by
  intro a
  have hl := lawful_of_mem (vanilla_mem hc)
  obtain ⟨p₀, _, hs⟩ := construct_state hl h₀
  have hr : c.Readable a := runCatch_readable hl ops _ (State.readable hl hs)
  have hsig : "sigma" ∈ c.sig.map (·.1) := by
    simp only [vanilla, List.mem_cons, List.not_mem_nil, or_false] at hc
    rcases hc with rfl | rfl | rfl <;> decide +kernel
  have hpo : paramOf "_sigma" c.body none = some "sigma" := by
    simp only [vanilla, List.mem_cons, List.not_mem_nil, or_false] at hc
    rcases hc with rfl | rfl | rfl <;> decide +kernel
  have hset := setParam_known hl hr hsig Val.none
  have hp' := (paramsOf_isArgs hl hr).update hsig Val.none
  have he := gbs_none_ok hc hp' (by simp) a
  have hpair : exec (Function.update (c.paramsOf a) "sigma" (some Val.none)) c.body a
      = ((exec (Function.update (c.paramsOf a) "sigma" (some Val.none)) c.body a).1, none) :=
    Prod.ext rfl he
  refine ⟨_, hset.trans hpair, ?_, ?_, ?_⟩
  · have hst : c.State (Function.update (c.paramsOf a) "sigma" (some Val.none)) _ := ⟨hp', a, hpair⟩
    obtain ⟨d, hd, _, hlk⟩ := getParams_dict hl (State.readable hl hst)
    refine ⟨d, hd, ?_⟩
    rw [hlk "sigma" hsig, State.paramsOf hl hst]
    simp
  · refine C07_none_refused _ ?_
    rw [exec_paramOf _ "_sigma" "sigma" c.body none a _ (by simp) hpair hpo]
    simp
  · intro call
    have : (exec (Function.update (c.paramsOf a) "sigma" (some Val.none)) c.body a).1 "_sigma"
        = some .none := by
      rw [exec_paramOf _ "_sigma" "sigma" c.body none a _ (by simp) hpair hpo]
      simp
    simp [GBSClass.greeks, isNoneArg, this]
    rfl

/-- Example for C07: an option priced at `sigma=0.2`, then reset to `None`: the cached `_d1` is still
on the object, and the price is refused. -/
theorem C07_stale_example :
    let a₀ := (gbsCls.construct (gbsKw 100 95 1 0.01 0.02 (.num 0.2))).1
    let a := (gbsCls.setParam "sigma" .none a₀).1
    (a "_d1").isSome ∧ (∃ v, GBSClass.call.run a₀ = .ok v) ∧
      GBSClass.call.run a = .error .valueError := by
  refine ⟨?_, ?_, ?_⟩
  all_goals
    simp [Cls.construct, Cls.init, Cls.setParam, Cls.getParams, gbsCls, gbsKw, bindArgs, req, dflt,
      optionInit, optionFields, assignParams, GBSClass.initD, exec, Expr.eval, isNoneArg, Attrs.set,
      Expr.log, Expr.sqrt, Expr.exp, Expr.cnd, Val.map, Val.map₂, Val.pdiv, ok_bind, eval_add,
      eval_sub, eval_mul, eval_div, eval_neg, eval_ofNat, pure, Except.pure, List.lookup,
      GBSClass.call, Meth.run, Dict.insert, List.mapM_cons]

/-! ### C08 -/

/-- The closed-form price and greek methods of each class. -/
noncomputable def methodsOf (c : Cls) : List Meth :=
  if c.pyName ∈ ["GBSOption", "BlackScholesOption", "Black76Option"] then GBSClass.methods
  else if c.pyName = "MiltersenSchwartzOption" then [MSClass.call, MSClass.put]
  else if c.pyName = "SpreadApproxOption" then [KirkClass.call, KirkClass.put]
  else []

theorem methods_safe {c : Cls} (hc : c ∈ classes) {m : Meth} (hm : m ∈ methodsOf c) :
    c.safe m = true := by
  have h : ∀ c ∈ classes, (methodsOf c).all c.safe = true := by
    intro c hc
    simp only [classes, List.mem_cons, List.not_mem_nil, or_false] at hc
    rcases hc with rfl | rfl | rfl | rfl | rfl | rfl | rfl | rfl | rfl | rfl | rfl | rfl | rfl | rfl |
      rfl | rfl <;> decide +kernel
  exact List.all_eq_true.mp (h c hc) m hm

/-- **C08.** Build an object of any class, apply any sequence of `set_param` calls (any names, any
values) none of which raises.  Then building a fresh object from the original keyword arguments
overwritten by the values set also succeeds, and the two objects have the same `get_params()`, the same
value of every attribute that the constructor assigns unconditionally (so the same prices for the tree
classes, whose methods read only those), and the same result (or exception) from every closed-form
price and greek. -/
theorem C08_coherent {c : Cls} (hc : c ∈ classes) {kw : Dict} {a₀ : Attrs}
    (h₀ : c.construct kw = (a₀, none)) (ops : List (String × Val)) {a : Attrs}
    (h : c.runAll ops a₀ = (a, none)) :
    ∃ a', c.construct (c.kwAfter kw ops) = (a', none) ∧ c.getParams a = c.getParams a' ∧
      (∃ d, c.getParams a = .ok d) ∧
      (∀ x ∈ defs c.body [], a x = a' x) ∧ ∀ m ∈ methodsOf c, m.run a = m.run a' := by
  have hl := lawful_of_mem hc
  obtain ⟨p, hb, hs⟩ := construct_state hl h₀
  obtain ⟨p', hb', hs'⟩ := runAll_state hl ops kw p a₀ a hb hs h
  obtain ⟨a', hc', hs''⟩ := construct_of_state hl hb' hs'
  refine ⟨a', hc', Cls.Respects.getParams hl p' a a' hs' hs'', ?_, (State.agree hl hs' hs'').1, ?_⟩
  · obtain ⟨d, hd, _⟩ := getParams_dict hl (State.readable hl hs')
    exact ⟨d, hd⟩
  · intro m hm
    exact Cls.Respects.of_safe hl (methods_safe hc hm) p' a a' hs' hs''

/-- The attributes the pricing code of the tree classes reads are all assigned unconditionally, so
`C08_coherent` covers every function of them, in particular `call()`, `put()`, `delta()`, ….
(binomial trees: `_S _K _t _r _b _sigma _n _type`; 3D trees: all of lines 134-158 of bitree3d.py;
American approximations: the parameters.) -/
theorem C08_tree_attrs :
    (∀ c ∈ [crrCls, jrCls, tianCls, trinomialCls],
      ∀ x ∈ ["_S", "_K", "_t", "_r", "_b", "_sigma", "_n", "_type"], x ∈ defs c.body []) ∧
    (∀ c ∈ [allTypesCls, maxCls, minCls, spreadCls],
      ∀ x ∈ ["_S1", "_S2", "_Q1", "_Q2", "_K", "_K2", "_t", "_r", "_b1", "_b2", "_sigma1", "_sigma2",
        "_rho", "_option", "_n", "_otype", "_dt", "_mu1", "_mu2", "_u", "_d"], x ∈ defs c.body []) ∧
    (∀ x ∈ ["_S", "_K", "_t", "_td", "_r", "_D", "_sigma", "_big", "_eps"], x ∈ defs rgwCls.body []) ∧
    (∀ c ∈ [bawCls, bsAmericanCls],
      ∀ x ∈ ["_S", "_K", "_t", "_r", "_b", "_sigma"], x ∈ defs c.body []) := by
  refine ⟨?_, ?_, ?_, ?_⟩ <;> simp only [List.forall_mem_cons] <;>
    simp [defs, crrCls, jrCls, tianCls, trinomialCls, allTypesCls, maxCls, minCls, spreadCls,
      tree3dSub, rgwCls, bawCls, bsAmericanCls, assignParams, optionInit, Tree3dClass.initD]

/-- Recovery: after any history, including calls that raised and left the object incoherent, one
`set_param` call that returns normally makes the object indistinguishable from a fresh one built from
its own `get_params()` (minus the keys `set_param` deletes). -/
theorem C08_recovers {c : Cls} (hc : c ∈ classes) {kw : Dict} {a₀ : Attrs}
    (h₀ : c.construct kw = (a₀, none)) (ops : List (String × Val)) (x : String) (v : Val) {a : Attrs}
    (h : c.setParam x v (c.runCatch ops a₀) = (a, none)) :
    ∃ d a', c.getParams a = .ok d ∧ c.construct (c.drop.foldl Dict.del d) = (a', none) ∧
      c.getParams a' = .ok d ∧ (∀ x ∈ defs c.body [], a x = a' x) ∧
      ∀ m ∈ methodsOf c, m.run a = m.run a' := by
  have hl := lawful_of_mem hc
  obtain ⟨p, _, hs⟩ := construct_state hl h₀
  have hr := runCatch_readable hl ops _ (State.readable hl hs)
  have hst := setParam_state hl hr h
  obtain ⟨d, hd, hk, hlk⟩ := getParams_dict hl (State.readable hl hst)
  rw [State.paramsOf hl hst] at hlk
  have hb : bindArgs c.sig (c.drop.foldl Dict.del d)
      = .ok (c.newParams x v (c.paramsOf (c.runCatch ops a₀))) := by
    refine bindArgs_of_lookup hst.1 ?_ ?_
    · intro k hk'
      rw [keys_drops, hk] at hk'
      obtain ⟨f, hf, rfl⟩ := List.mem_map.mp hk'.2
      exact hl.inSig f hf hk'.1
    · intro s hs'
      rw [lookup_drops, if_neg (hl.notdrop s hs'), hlk s hs']
  obtain ⟨a', hc', hs'⟩ := construct_of_state hl hb hst
  refine ⟨d, a', hd, hc', ?_, (State.agree hl hst hs').1, fun m hm => ?_⟩
  · rw [← Cls.Respects.getParams hl _ a a' hst hs']; exact hd
  · exact Cls.Respects.of_safe hl (methods_safe hc hm) _ a a' hst hs'

/-- Example for C08: changing the strike and the volatility of a priced option; the price is that of a
fresh option, computed by the formula of `Model/GBS.lean`. -/
theorem C08_example :
    let a₀ := (gbsCls.construct (gbsKw 100 95 1 0.01 0.02 (.num 0.2))).1
    let a := (gbsCls.runAll [("K", .num 105), ("sigma", .none), ("sigma", .num 0.3)] a₀).1
    (gbsCls.runAll [("K", .num 105), ("sigma", .none), ("sigma", .num 0.3)] a₀).2 = none ∧
    GBSClass.call.run a = ((GBS.new 100 105 1 0.01 0.02 (some 0.3)).call).map .num := by
  have key : (gbsCls.runAll [("K", .num 105), ("sigma", .none), ("sigma", .num 0.3)]
      (gbsCls.construct (gbsKw 100 95 1 0.01 0.02 (.num 0.2))).1).2 = none := by
    simp [Cls.runAll, Cls.construct, Cls.init, Cls.setParam, Cls.getParams, gbsCls, gbsKw, bindArgs,
      req, dflt, optionInit, optionFields, assignParams, GBSClass.initD, exec, Expr.eval, isNoneArg,
      Attrs.set, Expr.log, Expr.sqrt, Val.map, Val.map₂, Val.pdiv, ok_bind, eval_add,
      eval_sub, eval_mul, eval_div, eval_neg, eval_ofNat, pure, Except.pure, List.lookup,
      Dict.insert, List.mapM_cons]
  refine ⟨key, ?_⟩
  obtain ⟨a₀, ha₀, -⟩ := isGBS_construct 100 95 1 0.01 0.02 0.2 (by norm_num)
  obtain ⟨a', ha', hg'⟩ := isGBS_construct 100 105 1 0.01 0.02 0.3 (by norm_num)
  rw [ha₀] at key ⊢
  obtain ⟨a'', h1, _, _, _, h2⟩ := C08_coherent (c := gbsCls) (by simp [classes]) ha₀
    [("K", .num 105), ("sigma", .none), ("sigma", .num 0.3)] (Prod.ext rfl key)
  have hkw : gbsCls.kwAfter (gbsKw 100 95 1 0.01 0.02 (.num 0.2))
      [("K", .num 105), ("sigma", .none), ("sigma", .num 0.3)]
      = gbsKw 100 105 1 0.01 0.02 (.num 0.3) := by
    simp [Cls.kwAfter, gbsCls, gbsKw, Dict.insert, req, dflt]
  rw [hkw, ha'] at h1
  simp only [Prod.mk.injEq, and_true] at h1
  subst h1
  rw [h2 GBSClass.call (by simp [methodsOf, gbsCls, GBSClass.methods])]
  exact (isGBS_methods hg').1

/-! ### C09 -/

/-- Classes whose constructor only stores its parameters (after possibly refusing arrays). -/
def atomicClasses : List Cls := [crrCls, jrCls, tianCls, trinomialCls, rgwCls, bawCls, bsAmericanCls]

theorem atomic_mem {c : Cls} (h : c ∈ atomicClasses) : c ∈ classes := by
  simp only [atomicClasses, classes, List.mem_cons, List.not_mem_nil, or_false] at h ⊢
  tauto

theorem exec_assignParams_ok (args : Attrs) (l : List Stmt)
    (h : ∀ s ∈ l, (∃ x p, s = .assign x (.arg p) ∧ (args p).isSome) ∨ ∃ x y, s = .assign x (.lit y)) :
    ∀ a, (exec args l a).2 = none := by
  induction l with
  | nil => intro a; rfl
  | cons s l ih =>
    intro a
    rcases h s (by simp) with ⟨x, p, rfl, hp⟩ | ⟨x, y, rfl⟩
    · obtain ⟨v, hv⟩ := Option.isSome_iff_exists.mp hp
      simp only [exec, Expr.eval, hv]
      exact ih (fun s hs => h s (List.mem_cons_of_mem _ hs)) _
    · simp only [exec, Expr.eval]
      exact ih (fun s hs => h s (List.mem_cons_of_mem _ hs)) _

/-- Whether a statement stores a parameter of the class or a literal. -/
def plainStmt (names : List String) : Stmt → Bool
  | .assign _ (.arg p) => names.contains p
  | .assign _ (.lit _) => true
  | _ => false

theorem atomic_exec {c : Cls} (hc : c ∈ atomicClasses) {p : Attrs} (hp : IsArgs c.sig p)
    (a : Attrs) (e : PyErr) (he : (exec p c.body a).2 = some e) :
    (exec p c.body a).1 = a ∧ e = .typeError := by
  have plain : ∀ l : List Stmt, l.all (plainStmt (c.sig.map (·.1))) = true →
      ∀ a, (exec p l a).2 = none := by
    intro l hl
    refine exec_assignParams_ok p l (fun s hs => ?_)
    have := List.all_eq_true.mp hl s hs
    cases s with
    | assign x e =>
      cases e with
      | arg q =>
        simp only [plainStmt] at this
        exact Or.inl ⟨x, q, rfl, (hp q).mpr (List.contains_iff_mem.mp this)⟩
      | lit y => exact Or.inr ⟨x, y, rfl⟩
      | _ => simp [plainStmt] at this
    | _ => simp [plainStmt] at this
  have h : c.body.all (plainStmt (c.sig.map (·.1))) = true ∨
      ∃ ps l, c.body = .noArrays ps :: l ∧ l.all (plainStmt (c.sig.map (·.1))) = true := by
    simp only [atomicClasses, List.mem_cons, List.not_mem_nil, or_false] at hc
    rcases hc with rfl | rfl | rfl | rfl | rfl | rfl | rfl
    · left; decide +kernel
    · left; decide +kernel
    · left; decide +kernel
    · left; decide +kernel
    · right; exact ⟨_, _, rfl, by decide +kernel⟩
    · right; exact ⟨_, _, rfl, by decide +kernel⟩
    · right; exact ⟨_, _, rfl, by decide +kernel⟩
  rcases h with h | ⟨ps, l, hb, h⟩
  · rw [plain _ h a] at he; cases he
  · rw [hb] at he ⊢
    simp only [exec] at he ⊢
    split at he
    · rename_i h1
      injection he with he
      rw [if_pos h1]
      exact ⟨rfl, he.symm⟩
    · rw [plain _ h a] at he; cases he

/-- **C09, part that holds.** (1) On any reachable object of any class, a `set_param` with an unknown
parameter name raises `TypeError` and leaves the object exactly as it was. (2) For the tree and American
classes every `set_param` that raises at all leaves the object exactly as it was.
Missing: the same for classes whose constructor computes derived attributes (see
`C09_not_atomic_gbs`, `C09_not_atomic_tree3d`: there it is false). -/
theorem C09_failed_set_param_partial {c : Cls} (hc : c ∈ classes) {kw : Dict} {a₀ : Attrs}
    (h₀ : c.construct kw = (a₀, none)) (ops : List (String × Val)) (x : String) (v : Val) :
    let a := c.runCatch ops a₀
    (x ∉ c.names → x ∉ c.drop → c.setParam x v a = (a, some .typeError)) ∧
    (c ∈ atomicClasses → ∀ e, (c.setParam x v a).2 = some e →
      (c.setParam x v a).1 = a ∧ e = .typeError) := by
  intro a
  have hl := lawful_of_mem hc
  obtain ⟨p, _, hs⟩ := construct_state hl h₀
  have hr : c.Readable a := runCatch_readable hl ops _ (State.readable hl hs)
  refine ⟨fun h1 h2 => setParam_unknown hl hr h1 h2 v, fun hat e he => ?_⟩
  rcases setParam_cases hl hr x v with h | ⟨hp, h⟩
  · rw [h] at he ⊢
    simp only [Option.some.injEq] at he
    exact ⟨rfl, he.symm⟩
  · rw [h] at he ⊢
    exact atomic_exec hat hp a e he

/-- Arrays are refused by the American classes without touching the object. -/
theorem C09_arrays_refused {c : Cls} (hc : c ∈ [rgwCls, bawCls, bsAmericanCls]) {kw : Dict}
    {a₀ : Attrs} (h₀ : c.construct kw = (a₀, none)) (ops : List (String × Val)) {x : String}
    (hx : x ∈ c.names) (xs : List ℝ) (hxs : 1 < xs.length) :
    c.setParam x (.arr xs) (c.runCatch ops a₀) = (c.runCatch ops a₀, some .typeError) := by
  have hcl : c ∈ classes := by
    simp only [classes, List.mem_cons, List.not_mem_nil, or_false] at hc ⊢
    tauto
  have hl := lawful_of_mem hcl
  obtain ⟨p, _, hs⟩ := construct_state hl h₀
  have hr := runCatch_readable hl ops _ (State.readable hl hs)
  rw [setParam_known hl hr hx]
  have hb : ∃ ps l, c.body = .noArrays ps :: l ∧ x ∈ ps := by
    simp only [List.mem_cons, List.not_mem_nil, or_false] at hc
    rcases hc with rfl | rfl | rfl
    · exact ⟨_, _, rfl, by simpa [Cls.names, rgwCls, req, dflt] using hx⟩
    · exact ⟨_, _, rfl, by simpa [Cls.names, bawCls, req, dflt] using hx⟩
    · exact ⟨_, _, rfl, by simpa [Cls.names, bsAmericanCls, bawCls, req, dflt] using hx⟩
  obtain ⟨ps, l, hb, hmem⟩ := hb
  rw [hb]
  simp only [exec]
  rw [if_pos]
  rw [List.any_eq_true]
  exact ⟨x, hmem, by simp [Val.isBigArray, hxs]⟩

/-- **C09 fails** for `GBSOption`: `set_param("K", 0)` raises `ZeroDivisionError`, but the object has
the new strike 0 together with the `_d1`, `_d2` of the old one, and prices without complaint. -/
theorem C09_not_atomic_gbs (S K t r b σ : ℝ) (hK : K ≠ 0) :
    let a₀ := (gbsCls.construct (gbsKw S K t r b (.num σ))).1
    let a := (gbsCls.setParam "K" (.num 0) a₀).1
    (gbsCls.setParam "K" (.num 0) a₀).2 = some .zeroDivision ∧
    a "_K" = some (.num 0) ∧ a "_d1" = a₀ "_d1" ∧
    GBSClass.call.run a
      = .ok (.num (S * Real.exp ((b - r) * t) * CND (GBS.d1Expr S K t b σ))) := by
  refine ⟨?_, ?_, ?_, ?_⟩
  all_goals
    simp [Cls.construct, Cls.init, Cls.setParam, Cls.getParams, gbsCls, gbsKw, bindArgs, req, dflt,
      optionInit, optionFields, assignParams, GBSClass.initD, exec, Expr.eval, isNoneArg, Attrs.set,
      Expr.log, Expr.sqrt, Expr.exp, Expr.cnd, Val.map, Val.map₂, Val.pdiv, ok_bind, eval_add,
      eval_sub, eval_mul, eval_div, eval_neg, eval_ofNat, pure, Except.pure, List.lookup,
      GBSClass.call, Meth.run, Dict.insert, List.mapM_cons, hK, GBS.d1Expr, error_bind]

/-- **C09 fails** for the 3D trees: `set_param("n", 0)` raises `ZeroDivisionError`, leaving `n = 0`
together with the step `_dt` of the old `n`; shown for `BionomialMaxOption` built with any numbers. -/
theorem C09_not_atomic_tree3d (S1 S2 K t r b1 b2 s1 s2 rho n : ℝ) (hn : n ≠ 0) :
    let kw : Dict := [("S1", .num S1), ("S2", .num S2), ("K", .num K), ("t", .num t), ("r", .num r),
      ("b1", .num b1), ("b2", .num b2), ("sigma1", .num s1), ("sigma2", .num s2), ("rho", .num rho),
      ("n", .num n)]
    let a₀ := (maxCls.construct kw).1
    let a := (maxCls.setParam "n" (.num 0) a₀).1
    (maxCls.construct kw).2 = none ∧
    (maxCls.setParam "n" (.num 0) a₀).2 = some .zeroDivision ∧
    a "_n" = some (.num 0) ∧ a "_dt" = some (.num (t / n)) := by
  refine ⟨?_, ?_, ?_, ?_⟩
  all_goals
    simp [Cls.construct, Cls.init, Cls.setParam, Cls.getParams, maxCls, tree3dSub, bindArgs, req, dflt,
      assignParams, Tree3dClass.initD, exec, Expr.eval, isNoneArg, Attrs.set,
      Expr.log, Expr.sqrt, Expr.exp, Expr.cnd, Val.map, Val.map₂, Val.pdiv, ok_bind, eval_add,
      eval_sub, eval_mul, eval_div, eval_neg, eval_ofNat, pure, Except.pure, List.lookup,
      Dict.insert, List.mapM_cons, hn, error_bind]

end Verif.Props
