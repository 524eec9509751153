import Verif.Model.Summary
import Verif.Props.Obj
import Verif.Props.Greeks2
import Mathlib.Algebra.Order.Round

/-!
C96: what `summary()`, `str(option)` and `repr(option)` tell the reader.
-/
set_option linter.unusedSimpArgs false
namespace Verif.Props
open Verif Verif.Summary

/-- Specification side: the values a reader sees, in order. -/
def valuesOf : Text → List Shown
  | [] => []
  | .txt _ :: t => valuesOf t
  | .val v :: t => v :: valuesOf t

/-- Specification side: the words a reader sees, in order. -/
def wordsOf : Text → List String
  | [] => []
  | .txt s :: t => s :: wordsOf t
  | .val _ :: t => wordsOf t

/-- Specification: arrays of up to six entries and everything else are shown unchanged; longer arrays are rounded to two
decimals and elided. -/
def Displays (rnd : ℕ → ℝ → ℝ) (v : Val) (s : Shown) : Prop :=
  (∃ xs : List ℝ, 6 < xs.length ∧ v = .arr xs ∧ s = .elided (xs.map (rnd 2))) ∨
    ((∀ xs : List ℝ, v = .arr xs → xs.length ≤ 6) ∧ s = .exact v)

/-- Specification of the prices in the text: two numbers rounded to six decimals, two arrays (or an array and a number)
rounded to two decimals, and nothing as soon as one of the methods raises or gives no number. -/
def PricesShown (rnd : ℕ → ℝ → ℝ) (call put : Except PyErr Val) (l : List Shown) : Prop :=
  (∃ x y, call = .ok (.num x) ∧ put = .ok (.num y) ∧ l = [.exact (.num (rnd 6 x)), .exact (.num (rnd 6 y))]) ∨
  (∃ xs ys s s', call = .ok (.arr xs) ∧ put = .ok (.arr ys) ∧ Displays rnd (.arr (xs.map (rnd 2))) s ∧
    Displays rnd (.arr (ys.map (rnd 2))) s' ∧ l = [s, s']) ∨
  (∃ xs y s, call = .ok (.arr xs) ∧ put = .ok (.num y) ∧ Displays rnd (.arr (xs.map (rnd 2))) s ∧
    l = [s, .exact (.num (rnd 2 y))]) ∨
  (l = [] ∧ ¬ ((∃ x y, call = .ok (.num x) ∧ put = .ok (.num y)) ∨
    ∃ xs, call = .ok (.arr xs) ∧ ((∃ y, put = .ok (.num y)) ∨ ∃ ys, put = .ok (.arr ys))))

variable (rnd : ℕ → ℝ → ℝ)

theorem displays_check (v : Val) : Displays rnd v (checkString rnd v) := by
  cases v with
  | arr xs =>
    by_cases h : 6 < xs.length
    · exact Or.inl ⟨xs, h, rfl, by simp [checkString, h]⟩
    · exact Or.inr ⟨fun ys hy => by cases hy; omega, by simp [checkString, h]⟩
  | none => exact Or.inr ⟨fun _ h => by simp at h, rfl⟩
  | num x => exact Or.inr ⟨fun _ h => by simp at h, rfl⟩
  | str x => exact Or.inr ⟨fun _ h => by simp at h, rfl⟩

theorem valuesOf_append (t t' : Text) : valuesOf (t ++ t') = valuesOf t ++ valuesOf t' := by
  induction t with
  | nil => rfl
  | cons p t ih => cases p <;> simp [valuesOf, ih]

theorem wordsOf_append (t t' : Text) : wordsOf (t ++ t') = wordsOf t ++ wordsOf t' := by
  induction t with
  | nil => rfl
  | cons p t ih => cases p <;> simp [wordsOf, ih]

theorem values_paramLines (f : Val → Shown) (d : Dict) : valuesOf (paramLines f d) = d.map fun p => f p.2 := by
  induction d with
  | nil => rfl
  | cons p d ih =>
    have : paramLines f (p :: d) = [.txt ("  " ++ p.1 ++ " = "), .val (f p.2), .txt "\n"] ++ paramLines f d := rfl
    rw [this, valuesOf_append, ih]; rfl

theorem words_paramLines (f : Val → Shown) (d : Dict) :
    wordsOf (paramLines f d) = d.flatMap fun p => ["  " ++ p.1 ++ " = ", "\n"] := by
  induction d with
  | nil => rfl
  | cons p d ih =>
    have : paramLines f (p :: d) = [.txt ("  " ++ p.1 ++ " = "), .val (f p.2), .txt "\n"] ++ paramLines f d := rfl
    rw [this, wordsOf_append, ih]; rfl

theorem prices_shown (suffix : String) (call put : Except PyErr Val) :
    PricesShown rnd call put (valuesOf (orNothing (priceSection rnd suffix call put))) := by
  have hd := displays_check rnd
  rcases call with e | v
  · exact Or.inr (Or.inr (Or.inr ⟨rfl, by simp⟩))
  · rcases put with e | w
    · refine Or.inr (Or.inr (Or.inr ⟨?_, by simp⟩))
      cases v <;> rfl
    · cases v with
      | none => exact Or.inr (Or.inr (Or.inr ⟨rfl, by simp⟩))
      | str s => exact Or.inr (Or.inr (Or.inr ⟨rfl, by simp⟩))
      | num x =>
        cases w with
        | num y => exact Or.inl ⟨x, y, rfl, rfl, rfl⟩
        | none => exact Or.inr (Or.inr (Or.inr ⟨rfl, by simp⟩))
        | str s => exact Or.inr (Or.inr (Or.inr ⟨rfl, by simp⟩))
        | arr ys => exact Or.inr (Or.inr (Or.inr ⟨rfl, by simp⟩))
      | arr xs =>
        cases w with
        | num y => exact Or.inr (Or.inr (Or.inl ⟨xs, y, _, rfl, rfl, hd _, rfl⟩))
        | none => exact Or.inr (Or.inr (Or.inr ⟨rfl, by simp⟩))
        | str s => exact Or.inr (Or.inr (Or.inr ⟨rfl, by simp⟩))
        | arr ys => exact Or.inr (Or.inl ⟨xs, ys, _, _, rfl, rfl, hd _, hd _, rfl⟩)

/-- **C96.** For every option class, every object built by its constructor and every later history of `set_param` calls
(successful or not), and whatever `call()` and `put()` do on it, including raising any exception: `str(option)` returns a
text.  The text opens with the title, lists every parameter of `get_params()` once, in order, under its name, and shows
the prices exactly when both are numbers (or arrays). -/
theorem C96_text_partial {c : Cls} (hc : c ∈ classes.filter fun c => !(["RollGeskeWhaleyOption",
      "BSAmericanApproxOption"].contains c.pyName)) {kw : Dict} {a₀ : Attrs} (h₀ : c.construct kw = (a₀, none))
    (ops : List (String × Val)) (call put : Attrs → Except PyErr Val) (title suffix : String) :
    let a := c.runCatch ops a₀
    ∃ d out, c.getParams a = .ok d ∧
      Summary.str rnd title suffix (c.getParams a) (call a) (put a) = .ok (some out) ∧
      (∃ shown prices, valuesOf out = shown ++ prices ∧ List.Forall₂ (fun p s => Displays rnd p.2 s) d shown ∧
        PricesShown rnd (call a) (put a) prices) ∧
      ∃ ws, wordsOf out = ("Title: " ++ title ++ " Valuation\n\nParameters:\n\n") ::
        (d.flatMap fun p => ["  " ++ p.1 ++ " = ", "\n"]) ++ ws ∧
        (ws = [] ∨ ws = ["\nOption Price:\n\n  call" ++ suffix ++ ": ", "\n  put" ++ suffix ++ ": "]) := by
  intro a
  obtain ⟨d, hd⟩ := reach_params (List.mem_of_mem_filter hc) h₀ ops
  refine ⟨d, _, hd, by rw [hd]; rfl, ⟨d.map fun p => checkString rnd p.2, _, ?_, ?_,
    prices_shown rnd suffix (call a) (put a)⟩, ⟨wordsOf (orNothing (priceSection rnd suffix (call a) (put a))), ?_, ?_⟩⟩
  · rw [valuesOf_append, valuesOf_append, values_paramLines]; rfl
  · rw [List.forall₂_map_right_iff]
    exact List.forall₂_same.mpr fun p _ => displays_check rnd p.2
  · rw [wordsOf_append, wordsOf_append, words_paramLines]; rfl
  · rcases h : priceSection rnd suffix (call a) (put a) with e | t
    · exact Or.inl rfl
    · right
      unfold priceSection at h
      rcases hca : call a with e | v
      · rw [hca] at h; cases h
      · rcases hpa : put a with e | w
        · rw [hca, hpa] at h
          cases v <;> cases h
        · rw [hca, hpa] at h
          cases v <;> cases w <;> cases h <;> rfl

/-- **C96.** `summary()` prints exactly the text that `summary(printer=False)` and `str` return, and returns `None`. -/
theorem C96_printer (title suffix : String) (params : Except PyErr Dict) (call put : Except PyErr Val) :
    (∃ e, Summary.summary rnd title suffix params call put true = .error e ∧
      Summary.summary rnd title suffix params call put false = .error e) ∨
    ∃ out, Summary.summary rnd title suffix params call put true = .ok ⟨[out], none⟩ ∧
      Summary.summary rnd title suffix params call put false = .ok ⟨[], some out⟩ ∧
      Summary.str rnd title suffix params call put = .ok (some out) := by
  rcases params with e | d
  · exact Or.inl ⟨e, rfl, rfl⟩
  · exact Or.inr ⟨_, rfl, rfl, rfl⟩

/-- **C96.** After successful `set_param` calls the text is that of a fresh option with the parameters it lists. -/
theorem C96_fresh {c : Cls} (hc : c ∈ classes) {kw : Dict} {a₀ : Attrs} (h₀ : c.construct kw = (a₀, none))
    (ops : List (String × Val)) {a : Attrs} (h : c.runAll ops a₀ = (a, none)) (call put : Attrs → Except PyErr Val)
    (hcall : c.Respects call) (hput : c.Respects put) (title suffix : String) :
    ∃ a', c.construct (c.kwAfter kw ops) = (a', none) ∧
      Summary.str rnd title suffix (c.getParams a) (call a) (put a)
        = Summary.str rnd title suffix (c.getParams a') (call a') (put a') := by
  have hl := lawful_of_mem hc
  obtain ⟨p, hb, hs⟩ := construct_state hl h₀
  obtain ⟨p', hb', hs'⟩ := runAll_state hl ops kw p a₀ a hb hs h
  obtain ⟨a', hc', hs''⟩ := construct_of_state hl hb' hs'
  refine ⟨a', hc', ?_⟩
  rw [Cls.Respects.getParams hl p' a a' hs' hs'', hcall p' a a' hs' hs'', hput p' a a' hs' hs'']

/-- **C96, negated after a failed `set_param`.** The text lists the strike 0 that was refused, together with a call price
computed with `d1` of the old strike; a fresh option with the listed parameters cannot even be built. -/
theorem C96_stale (S K t r b σ : ℝ) (hK : K ≠ 0) (title : String) :
    let a₀ := (gbsCls.construct (gbsKw S K t r b (.num σ))).1
    let a := (gbsCls.setParam "K" (.num 0) a₀).1
    (∃ out, Summary.str rnd title "" (gbsCls.getParams a) (GBSClass.call.run a) (GBSClass.put.run a) = .ok (some out) ∧
      valuesOf out = [.exact (.num S), .exact (.num 0), .exact (.num t), .exact (.num r), .exact (.num b),
        .exact (.num σ), .exact (.num (rnd 6 (S * Real.exp ((b - r) * t) * CND (GBS.d1Expr S K t b σ)))),
        .exact (.num (rnd 6 (-(S * Real.exp ((b - r) * t) * CND (-GBS.d1Expr S K t b σ)))))]) ∧
    (gbsCls.construct (gbsKw S 0 t r b (.num σ))).2 = some .zeroDivision := by
  intro a₀ a
  have hp : gbsCls.getParams a = .ok (gbsKw S 0 t r b (.num σ)) := by
    simp [a, a₀, Cls.construct, Cls.init, Cls.setParam, Cls.getParams, gbsCls, gbsKw, bindArgs, req, dflt,
      optionInit, optionFields, assignParams, GBSClass.initD, exec, Expr.eval, isNoneArg, Attrs.set,
      Expr.log, Expr.sqrt, Val.map, Val.map₂, Val.pdiv, ok_bind, eval_add,
      eval_sub, eval_mul, eval_div, eval_neg, eval_ofNat, pure, Except.pure, List.lookup,
      Dict.insert, List.mapM_cons, hK, error_bind]
  have hcl := (C09_not_atomic_gbs S K t r b σ hK).2.2.2
  have hpt : GBSClass.put.run a
      = .ok (.num (-(S * Real.exp ((b - r) * t) * CND (-GBS.d1Expr S K t b σ)))) := by
    simp [a, a₀, Cls.construct, Cls.init, Cls.setParam, Cls.getParams, gbsCls, gbsKw, bindArgs, req, dflt,
      optionInit, optionFields, assignParams, GBSClass.initD, exec, Expr.eval, isNoneArg, Attrs.set,
      Expr.log, Expr.sqrt, Expr.exp, Expr.cnd, Val.map, Val.map₂, Val.pdiv, ok_bind, eval_add,
      eval_sub, eval_mul, eval_div, eval_neg, eval_ofNat, pure, Except.pure, List.lookup,
      GBSClass.put, Meth.run, Dict.insert, List.mapM_cons, hK, GBS.d1Expr, error_bind]
  rw [hp, hpt, show GBSClass.call.run a = _ from hcl]
  refine ⟨⟨_, rfl, rfl⟩, ?_⟩
  · simp [Cls.construct, Cls.init, gbsCls, gbsKw, bindArgs, req, dflt,
      optionInit, assignParams, GBSClass.initD, exec, Expr.eval, isNoneArg, Attrs.set,
      Expr.log, Expr.sqrt, Val.map, Val.map₂, Val.pdiv, ok_bind, eval_add,
      eval_sub, eval_mul, eval_div, eval_neg, eval_ofNat, pure, Except.pure, List.lookup, error_bind]

/-- **C96, Roll–Geske–Whaley.** The text lists the parameters and always ends with the exercise flag; the price is shown
exactly when `call()` gives a number.  `summary()` raises exactly when `is_call_optimal()` does, which is evaluated outside the
`try`. -/
theorem C96_rgw {kw : Dict} {a₀ : Attrs} (h₀ : rgwCls.construct kw = (a₀, none)) (ops : List (String × Val))
    (call : Attrs → Except PyErr Val) (optimal : Attrs → Except PyErr Bool) (title : String) :
    let a := rgwCls.runCatch ops a₀
    (∃ e, optimal a = .error e ∧ ∀ pr, summaryRGW rnd title (rgwCls.getParams a) (call a) (optimal a) pr = .error e) ∨
    ∃ d flag out, rgwCls.getParams a = .ok d ∧ optimal a = .ok flag ∧
      summaryRGW rnd title (rgwCls.getParams a) (call a) (optimal a) false = .ok ⟨[], some out⟩ ∧
      summaryRGW rnd title (rgwCls.getParams a) (call a) (optimal a) true = .ok ⟨[out], none⟩ ∧
      (∃ prices, valuesOf out = (d.map fun p => Shown.exact p.2) ++ prices ∧
        ((∃ x, call a = .ok (.num x) ∧ prices = [.exact (.num (rnd 6 x))]) ∨
          prices = [] ∧ ¬ ∃ x, call a = .ok (.num x))) ∧
      (wordsOf out).getLast? = some ("  Optimal to Exercise Call Option: " ++ if flag then "True" else "False") := by
  intro a
  obtain ⟨d, hd⟩ := reach_params (c := rgwCls) (by simp [classes]) h₀ ops
  have hd' : rgwCls.getParams a = .ok d := hd
  rw [hd']
  rcases optimal a with e | flag
  · exact Or.inl ⟨e, rfl, fun _ => rfl⟩
  · refine Or.inr ⟨d, flag, _, rfl, rfl, rfl, rfl, ?_, ?_⟩
    · rw [valuesOf_append, valuesOf_append, valuesOf_append, values_paramLines]
      refine ⟨_, by rw [List.append_assoc]; rfl, ?_⟩
      rcases call a with e | v
      · exact Or.inr ⟨rfl, by simp⟩
      · cases v with
        | num x => exact Or.inl ⟨x, rfl, rfl⟩
        | none => exact Or.inr ⟨rfl, by simp⟩
        | str x => exact Or.inr ⟨rfl, by simp⟩
        | arr x => exact Or.inr ⟨rfl, by simp⟩
    · rw [wordsOf_append]; simp [wordsOf]

/-- Keyword arguments of a `RollGeskeWhaleyOption`. -/
def rgwKw (S K t td r D σ : Val) : Dict :=
  [("S", S), ("K", K), ("t", t), ("td", td), ("r", r), ("D", D), ("sigma", σ)]

/-- **C96, Roll–Geske–Whaley: the flag.** For numbers it says whether the dividend exceeds `K (1 - e^{-r (t - td)})`,
also when the volatility is missing. -/
theorem C96_rgw_flag (S K t td r D : ℝ) (σ : Val) (hσ : ∀ xs, σ ≠ .arr xs) :
    ∃ a, rgwCls.construct (rgwKw (.num S) (.num K) (.num t) (.num td) (.num r) (.num D) σ) = (a, none) ∧
      ∃ flag, rgwOptimal a = .ok flag ∧ (flag = true ↔ K * (1 - Real.exp (-r * (t - td))) < D) := by
  cases σ with
  | arr xs => exact absurd rfl (hσ xs)
  | _ =>
    simp [Cls.construct, Cls.init, rgwCls, rgwKw, bindArgs, req, dflt, assignParams, exec, Expr.eval, isNoneArg, Attrs.set,
      Val.isBigArray, Expr.exp, Val.map, Val.map₂, ok_bind, eval_add, eval_sub, eval_mul, eval_neg, eval_ofNat, pure,
      Except.pure, List.lookup, rgwOptimal, toScalar]
    exact le_or_gt _ _

/-- **C96, negated for Roll–Geske–Whaley.** An option whose strike is `None` can be built, but its `summary()`, hence
`str(option)`, raises `TypeError`, whatever the rounding and the pricing method do. -/
theorem C96_rgw_raises (S t td r D : ℝ) (title : String) :
    ∃ a, rgwCls.construct (rgwKw (.num S) .none (.num t) (.num td) (.num r) (.num D) .none) = (a, none) ∧
      ∀ (call : Except PyErr Val) (pr : Bool),
        summaryRGW rnd title (rgwCls.getParams a) call (rgwOptimal a) pr = .error .typeError := by
  have key : ∃ a d, rgwCls.construct (rgwKw (.num S) .none (.num t) (.num td) (.num r) (.num D) .none) = (a, none) ∧
      rgwCls.getParams a = .ok d ∧ rgwOptimal a = .error .typeError := by
    simp [Cls.construct, Cls.init, Cls.getParams, rgwCls, rgwKw, bindArgs, req, dflt, assignParams, exec, Expr.eval,
      isNoneArg, Attrs.set, Val.isBigArray, Expr.exp, Val.map, Val.map₂, ok_bind, error_bind, eval_add, eval_sub, eval_mul,
      eval_neg, eval_ofNat, pure, Except.pure, List.lookup, rgwOptimal, toScalar, List.mapM_cons]
  obtain ⟨a, d, h1, h2, h3⟩ := key
  exact ⟨a, h1, fun call pr => by rw [h2, h3]; rfl⟩

/-- **C96, Bjerksund–Stensland.** The text lists the parameters, then price and trigger of the call and of the put, rounded
to six decimals, exactly when all four are numbers. -/
theorem C96_bs93 {kw : Dict} {a₀ : Attrs} (h₀ : bsAmericanCls.construct kw = (a₀, none)) (ops : List (String × Val))
    (call put : Attrs → Except PyErr (Val × Val)) (title : String) :
    let a := bsAmericanCls.runCatch ops a₀
    ∃ d out prices, bsAmericanCls.getParams a = .ok d ∧
      summaryBS93 rnd title (bsAmericanCls.getParams a) (call a) (put a) false = .ok ⟨[], some out⟩ ∧
      valuesOf out = (d.map fun p => Shown.exact p.2) ++ prices ∧
      ((∃ c i p j, call a = .ok (.num c, .num i) ∧ put a = .ok (.num p, .num j) ∧
        prices = [.exact (.num (rnd 6 c)), .exact (.num (rnd 6 i)), .exact (.num (rnd 6 p)), .exact (.num (rnd 6 j))]) ∨
        prices = [] ∧ ¬ ∃ c i p j, call a = .ok (.num c, .num i) ∧ put a = .ok (.num p, .num j)) := by
  intro a
  obtain ⟨d, hd⟩ := reach_params (c := bsAmericanCls) (by simp [classes]) h₀ ops
  have hd' : bsAmericanCls.getParams a = .ok d := hd
  rw [hd']
  refine ⟨d, _, _, rfl, rfl, by rw [valuesOf_append, valuesOf_append, values_paramLines]; rfl, ?_⟩
  rcases call a with e | ⟨v, w⟩
  · exact Or.inr ⟨rfl, by simp⟩
  · rcases put a with e | ⟨v', w'⟩
    · refine Or.inr ⟨?_, by simp⟩
      cases v <;> first | rfl | (cases w <;> rfl)
    · cases v with
      | num c =>
        cases w with
        | num i =>
          cases v' with
          | num p =>
            cases w' with
            | num j => exact Or.inl ⟨c, i, p, j, rfl, rfl, rfl⟩
            | _ => exact Or.inr ⟨rfl, by simp⟩
          | _ => exact Or.inr ⟨rfl, by simp⟩
        | _ => exact Or.inr ⟨rfl, by simp⟩
      | _ => exact Or.inr ⟨rfl, by simp⟩

/-- Keyword arguments of a `GBSOption` on seven equal spot prices. -/
noncomputable def sevenKw (x : ℝ) : Dict :=
  [("S", .arr [x, x, x, x, x, x, x]), ("K", .num 95), ("t", .num 1), ("r", .num (1/100)), ("b", .num (2/100)),
    ("sigma", .num (1/5))]

/-- **C96, negated for long arrays.** With rounding to two decimals, `repr` does not determine the option: two options on
seven spot prices that differ have the same `repr`. -/
theorem C96_repr_lossy : ∃ a a',
    gbsCls.construct (sevenKw (100001/1000)) = (a, none) ∧ gbsCls.construct (sevenKw (100002/1000)) = (a', none) ∧
    Summary.repr (fun k x => round (10 ^ k * x) / 10 ^ k) gbsCls a
      = Summary.repr (fun k x => round (10 ^ k * x) / 10 ^ k) gbsCls a' ∧
    ∃ d d', gbsCls.getParams a = .ok d ∧ gbsCls.getParams a' = .ok d' ∧ d ≠ d' := by
  have key : ∀ x : ℝ, ∃ a, gbsCls.construct (sevenKw x) = (a, none) ∧ gbsCls.getParams a = .ok (sevenKw x) := by
    intro x
    simp [Cls.construct, Cls.init, Cls.getParams, gbsCls, sevenKw, bindArgs, req, dflt,
      optionInit, optionFields, assignParams, GBSClass.initD, exec, Expr.eval, isNoneArg, Attrs.set, Expr.sq,
      Expr.log, Expr.sqrt, Val.map, Val.map₂, Val.pdiv, broadcast, ok_bind, eval_add, GBSClass.S, GBSClass.K, GBSClass.d1,
      eval_sub, eval_mul, eval_div, eval_neg, eval_ofNat, pure, Except.pure, List.lookup, List.mapM_cons]
  obtain ⟨a, h1, h2⟩ := key (100001/1000)
  obtain ⟨a', h1', h2'⟩ := key (100002/1000)
  have r1 : round ((10:ℝ) ^ 2 * (100001/1000)) = 10000 := by
    rw [round_eq, Int.floor_eq_iff]; norm_num
  have r2 : round ((10:ℝ) ^ 2 * (100002/1000)) = 10000 := by
    rw [round_eq, Int.floor_eq_iff]; norm_num
  refine ⟨a, a', h1, h1', ?_, _, _, h2, h2', ?_⟩
  · unfold Summary.repr
    rw [h2, h2']
    simp [sevenKw, checkString, ok_bind, r1, r2]
  · simp only [sevenKw, ne_eq, List.cons.injEq, Prod.mk.injEq, Val.arr.injEq, true_and]
    norm_num

/-- **C96.** With arrays of at most six entries `repr` determines all parameters. -/
theorem C96_repr_exact {c : Cls} (hc : c ∈ classes) {kw kw' : Dict} {a₀ a₀' : Attrs}
    (h₀ : c.construct kw = (a₀, none)) (h₀' : c.construct kw' = (a₀', none)) (ops ops' : List (String × Val)) :
    let a := c.runCatch ops a₀
    let a' := c.runCatch ops' a₀'
    (∀ x, ∀ xs : List ℝ, (a x = some (.arr xs) ∨ a' x = some (.arr xs)) → xs.length ≤ 6) →
    Summary.repr rnd c a = Summary.repr rnd c a' → c.getParams a = c.getParams a' := by
  intro a a' hs h
  have hl := lawful_of_mem hc
  obtain ⟨p, _, hst⟩ := construct_state hl h₀
  obtain ⟨p', _, hst'⟩ := construct_state hl h₀'
  have e := getParams_eq c a (runCatch_readable hl ops _ (State.readable hl hst))
  have e' := getParams_eq c a' (runCatch_readable hl ops' _ (State.readable hl hst'))
  have hx : ∀ f ∈ c.fields, (∀ xs, (a f.2).getD .none = .arr xs → xs.length ≤ 6) ∧
      ∀ xs, (a' f.2).getD .none = .arr xs → xs.length ≤ 6 := by
    refine fun f _ => ⟨fun xs hh => hs f.2 xs (Or.inl ?_), fun xs hh => hs f.2 xs (Or.inr ?_)⟩
    · cases hv : a f.2 with
      | none => rw [hv] at hh; simp at hh
      | some v => rw [hv] at hh; simp at hh; rw [hh]
    · cases hv : a' f.2 with
      | none => rw [hv] at hh; simp at hh
      | some v => rw [hv] at hh; simp at hh; rw [hh]
  unfold Summary.repr at h
  rw [e, e'] at h ⊢
  have hinj : ∀ v w : Val, (∀ xs, v = .arr xs → xs.length ≤ 6) → (∀ xs, w = .arr xs → xs.length ≤ 6) →
      checkString rnd v = checkString rnd w → v = w := by
    have hex : ∀ v : Val, (∀ xs, v = .arr xs → xs.length ≤ 6) → checkString rnd v = .exact v := by
      intro v hv
      rcases displays_check rnd v with ⟨xs, h1, h2, _⟩ | ⟨_, h2⟩
      · exact absurd (hv xs h2) (by omega)
      · exact h2
    intro v w hv hw hvw
    rw [hex v hv, hex w hw] at hvw
    exact Shown.exact.inj hvw
  have h2 : (c.fields.map fun f => checkString rnd ((a f.2).getD .none))
      = c.fields.map fun f => checkString rnd ((a' f.2).getD .none) := by
    have := Except.ok.inj h
    simpa [List.map_map, Function.comp_def] using this
  congr 1
  refine List.map_congr_left fun f hf => ?_
  rw [hinj _ _ (hx f hf).1 (hx f hf).2 (List.map_inj_left.mp h2 f hf)]

/-- **C96, negated for the title.** `TIANBinomialTreeOption` shows the title of the Cox–Ross–Rubinstein tree; apart from
`GBSOption` and `BlackScholesOption` these are the only classes of the library that share a title. -/
theorem C96_title : titles.map (·.1) = classes.map Cls.pyName ∧ ∀ p ∈ titles, ∀ q ∈ titles, (p.2 = q.2 ∧ p.1 ≠ q.1) ↔
    (p.1 = "TIANBinomialTreeOption" ∧ q.1 = "CRRBinomialTreeOption") ∨
    (p.1 = "CRRBinomialTreeOption" ∧ q.1 = "TIANBinomialTreeOption") ∨
    (p.1 = "GBSOption" ∧ q.1 = "BlackScholesOption") ∨ (p.1 = "BlackScholesOption" ∧ q.1 = "GBSOption") := by
  refine ⟨rfl, ?_⟩
  unfold titles
  decide +kernel

/-- Example for C96: a plain option shows its six parameters and both prices. -/
theorem C96_example (S K t r b σ : ℝ) (hK : K ≠ 0) : ∃ a c p,
    gbsCls.construct (gbsKw S K t r b (.num σ)) = (a, none) ∧ GBSClass.call.run a = .ok (.num c) ∧
      GBSClass.put.run a = .ok (.num p) ∧ ∃ out,
      Summary.str rnd "Black Scholes Option" "" (gbsCls.getParams a) (GBSClass.call.run a) (GBSClass.put.run a)
        = .ok (some out) ∧
      wordsOf out = ["Title: Black Scholes Option Valuation\n\nParameters:\n\n", "  S = ", "\n", "  K = ", "\n",
        "  t = ", "\n", "  r = ", "\n", "  b = ", "\n", "  sigma = ", "\n", "\nOption Price:\n\n  call: ",
        "\n  put: "] ∧
      valuesOf out = [.exact (.num S), .exact (.num K), .exact (.num t), .exact (.num r), .exact (.num b),
        .exact (.num σ), .exact (.num (rnd 6 c)), .exact (.num (rnd 6 p))] := by
  obtain ⟨a, h, hS, hK', ht, hr, hb, hσ, h1, h2⟩ := gbs_construct S K t r b σ hK
  have hp : gbsCls.getParams a = .ok (gbsKw S K t r b (.num σ)) := by
    simp [Cls.getParams, gbsCls, optionFields, List.mapM_cons, hS, hK', ht, hr, hb, hσ, ok_bind, pure, Except.pure, gbsKw]
  have hc : ∃ c, GBSClass.call.run a = .ok (.num c) := by
    simp [GBSClass.call, Meth.run, isNoneArg, hS, hK', ht, hr, hb, hσ, h1, h2, Expr.eval, Expr.exp, Expr.cnd, Val.map,
      Val.map₂, ok_bind, eval_add, eval_sub, eval_mul, eval_neg]
  have hq : ∃ c, GBSClass.put.run a = .ok (.num c) := by
    simp [GBSClass.put, Meth.run, isNoneArg, hS, hK', ht, hr, hb, hσ, h1, h2, Expr.eval, Expr.exp, Expr.cnd, Val.map,
      Val.map₂, ok_bind, eval_add, eval_sub, eval_mul, eval_neg]
  obtain ⟨c, hc⟩ := hc
  obtain ⟨p, hq⟩ := hq
  refine ⟨a, c, p, h, hc, hq, ?_⟩
  rw [hp, hc, hq]
  exact ⟨_, rfl, rfl, rfl⟩

end Verif.Props
