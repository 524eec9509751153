import Verif.Props.Tree3d
import Verif.Props.Obj

/-!
C31, the three named classes: `BionomialSpreadOption`, `BionomialMaxOption` and `BionomialMinOption` build the same
object as the general class does with `option=` the number of the payoff in their name.
-/
namespace Verif.Props
open Verif

/-- The general class with a payoff, for each named class. -/
noncomputable def namedClasses : List (Cls × _root_.Verif.Tree3d.Code) :=
  [(spreadCls, .spread), (maxCls, .maxOf), (minCls, .minOf)]

/-- Two statements have the same effect, each under its own arguments. -/
def Stmt.Same (args args' : Attrs) (s s' : Stmt) : Prop :=
  ∃ x e e', s = .assign x e ∧ s' = .assign x e' ∧ ∀ a, e.eval args a = e'.eval args' a

theorem exec_same {args args' : Attrs} {l l' : List Stmt} (h : List.Forall₂ (Stmt.Same args args') l l') (a : Attrs) :
    exec args l a = exec args' l' a := by
  induction h generalizing a with
  | nil => rfl
  | cons hs _ ih =>
    obtain ⟨x, e, e', rfl, rfl, he⟩ := hs
    simp only [exec, he a]
    split
    · exact ih _
    · rfl

/-- **C31.** Whenever the arguments fit the signature of a named class, its constructor leaves the object in exactly the
state, or raises exactly the exception, of the general constructor called with the number of the payoff: `spread`
1, `max` 2, `min` 3. In particular the attribute `_option` that selects the payoff agrees with the name. -/
theorem C31_named_classes {c : Cls} {code : _root_.Verif.Tree3d.Code} (hc : (c, code) ∈ namedClasses) {kw : Dict} {args : Attrs}
    (hb : bindArgs c.sig kw = .ok args) :
    c.construct kw = allTypesCls.construct (("option", .num code.number) :: kw) := by
  obtain ⟨n1, n2, q, hsub, hq⟩ : ∃ n1 n2 q, c = tree3dSub n1 n2 q ∧ (code.number : ℝ) = q := by
    simp only [namedClasses, List.mem_cons, Prod.mk.injEq, List.not_mem_nil, or_false] at hc
    rcases hc with ⟨rfl, rfl⟩ | ⟨rfl, rfl⟩ | ⟨rfl, rfl⟩
    · exact ⟨_, _, _, rfl, by norm_num [Tree3d.Code.number]⟩
    · exact ⟨_, _, _, rfl, by norm_num [Tree3d.Code.number]⟩
    · exact ⟨_, _, _, rfl, by norm_num [Tree3d.Code.number]⟩
  subst hsub
  rw [hq]
  unfold bindArgs at hb
  split at hb
  · exact absurd hb (by simp)
  next h1 =>
  split at hb
  · exact absurd hb (by simp)
  next h2 =>
  have hargs := (Except.ok.inj hb).symm
  have hbind : bindArgs (tree3dSub n1 n2 q).sig kw = .ok args := by
    rw [bindArgs, if_neg h1, if_neg h2, hargs]
  simp only [List.any_eq_true, not_exists, not_and, Bool.not_eq_true] at h1 h2
  have h1' : ∀ kv ∈ kw, kv.1 ∈ (tree3dSub n1 n2 q).sig.map (·.1) := fun kv hkv => by
    have := h1 kv hkv
    simpa using this
  have hK2 : kw.lookup "K2" = none := by
    rw [List.lookup_eq_none_iff]
    intro kv hkv
    have := h1' kv hkv
    simp only [tree3dSub, req, dflt, List.map_cons, List.map_nil, List.mem_cons, List.not_mem_nil, or_false] at this
    rcases this with h | h | h | h | h | h | h | h | h | h | h | h | h | h <;> rw [h] <;> decide
  set args' : Attrs := fun s => match allTypesCls.sig.lookup s with
    | Option.none => Option.none
    | some d => ((("option", Val.num q) :: kw).lookup s).orElse (fun _ => d) with hargs'
  have hbind' : bindArgs allTypesCls.sig (("option", .num q) :: kw) = .ok args' := by
    have A : ¬((("option", Val.num q) :: kw).any fun kv => !(allTypesCls.sig.map (·.1)).contains kv.1) = true := by
      simp only [List.any_eq_true, not_exists, not_and, Bool.not_eq_true]
      intro kv hkv
      rcases List.mem_cons.1 hkv with rfl | hkv
      · simp [allTypesCls, req, dflt]
      · have := h1' kv hkv
        simp only [tree3dSub, req, dflt, List.map_cons, List.map_nil, List.mem_cons, List.not_mem_nil, or_false] at this
        rcases this with h | h | h | h | h | h | h | h | h | h | h | h | h | h <;> rw [h] <;> simp [allTypesCls, req, dflt]
    have B : ¬(allTypesCls.sig.any fun p => ((("option", Val.num q) :: kw).lookup p.1).isNone && p.2.isNone) = true := by
      simp only [List.any_eq_true, not_exists, not_and, Bool.not_eq_true]
      intro p hp
      by_contra hcon
      simp only [Bool.not_eq_false, Bool.and_eq_true, Option.isNone_iff_eq_none] at hcon
      obtain ⟨hl, hd⟩ := hcon
      have hmem : p ∈ (tree3dSub n1 n2 q).sig := by
        simp only [allTypesCls, req, dflt, List.mem_cons, List.not_mem_nil, or_false] at hp
        simp only [tree3dSub, req, dflt, List.mem_cons, List.not_mem_nil, or_false]
        rcases hp with h | h | h | h | h | h | h | h | h | h | h | h | h | h | h | h <;> subst h <;> simp_all
      have := h2 p hmem
      rw [hd] at this
      have hk : kw.lookup p.1 = none := by
        rw [List.lookup_cons] at hl
        split at hl
        · exact absurd hl (by simp)
        · exact hl
      rw [hk] at this
      simp at this
    rw [bindArgs, if_neg A, if_neg B]
    rfl
  have hs1 : (tree3dSub n1 n2 q).construct kw = exec args (tree3dSub n1 n2 q).body Attrs.empty := by
    rw [Cls.construct, Cls.init, hbind]
  have hs2 : allTypesCls.construct (("option", .num q) :: kw) = exec args' allTypesCls.body Attrs.empty := by
    rw [Cls.construct, Cls.init, hbind']
  rw [hs1, hs2]
  refine exec_same ?_ _
  have hcom : ∀ x ∈ ["S1", "S2", "K", "t", "r", "b1", "b2", "sigma1", "sigma2", "rho", "Q1", "Q2", "otype", "n"],
      args x = args' x := by
    intro x hx
    simp only [List.mem_cons, List.not_mem_nil, or_false] at hx
    rcases hx with h | h | h | h | h | h | h | h | h | h | h | h | h | h <;> subst h <;>
      simp [hargs, hargs', tree3dSub, allTypesCls, req, dflt, List.lookup]
    have := h2 ("K", none) (by simp [tree3dSub, req])
    simp only [Option.isNone_none, Bool.and_true] at this
    cases hl : kw.lookup "K" with
    | none => simp [hl] at this
    | some v => simp
  have hK2' : args' "K2" = some .none := by simp [hargs', allTypesCls, req, dflt, List.lookup, hK2]
  have ho : args' "option" = some (.num q) := by simp [hargs', allTypesCls, req, dflt, List.lookup]
  have harg : ∀ {y x : String}, x ∈ ["S1", "S2", "K", "t", "r", "b1", "b2", "sigma1", "sigma2", "rho", "Q1", "Q2", "otype", "n"] →
      Stmt.Same args args' (.assign y (.arg x)) (.assign y (.arg x)) := fun hx =>
    ⟨_, _, _, rfl, rfl, fun a => by simp only [Expr.eval, hcom _ hx]⟩
  simp only [tree3dSub, allTypesCls, assignParams, List.map_cons, List.map_nil, List.cons_append, List.nil_append,
    Tree3dClass.initD, List.forall₂_cons, List.forall₂_nil_left_iff, and_true]
  refine ⟨?_, ?_, ?_, ?_, ?_, ?_, ?_, ?_, ?_, ?_, ?_, ?_, ?_, ?_, ?_, ?_, ?_, ?_, ?_, ?_, ?_⟩
  all_goals first
    | exact harg (by simp)
    | exact ⟨_, _, _, rfl, rfl, fun a => by simp [Expr.eval, hK2', ho]⟩
    | exact ⟨_, _, _, rfl, rfl, fun a => rfl⟩

/-- Non-vacuous: an object of `BionomialSpreadOption` is built, with the payoff number 1 in `_option`. -/
theorem C31_named_example :
    let kw : Dict := [("S1", .num 100), ("S2", .num 90), ("K", .num 5), ("t", .num 1), ("r", .num 0.05), ("b1", .num 0),
      ("b2", .num 0), ("sigma1", .num 0.2), ("sigma2", .num 0.3), ("rho", .num 0.5)]
    (spreadCls.construct kw).2 = none ∧ (spreadCls.construct kw).1 "_option" = some (.num 1) := by
  constructor <;>
    simp [Cls.construct, Cls.init, spreadCls, tree3dSub, bindArgs, req, dflt,
      assignParams, Tree3dClass.initD, exec, Expr.eval, isNoneArg, Attrs.set,
      Expr.log, Expr.sqrt, Expr.exp, Expr.cnd, Val.map, Val.map₂, Val.pdiv, ok_bind, eval_add,
      eval_sub, eval_mul, eval_div, eval_neg, eval_ofNat, pure, Except.pure, List.lookup]

end Verif.Props
