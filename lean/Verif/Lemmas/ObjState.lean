import Verif.Lemmas.Obj
import Verif.Model.FDM

/-!
Consequences for every class of the library: methods see only what the constructor assigned, objects
after `set_param` are indistinguishable from fresh ones, finite differences work on copies.
-/
namespace Verif

/-- Every class of the library passes the static checks. -/
theorem lawful_of_mem {c : Cls} (hc : c ∈ classes) : c.Lawful := by
  refine Cls.Lawful.of c ?_
  simp only [classes, List.mem_cons, List.not_mem_nil, or_false] at hc
  rcases hc with rfl | rfl | rfl | rfl | rfl | rfl | rfl | rfl | rfl | rfl | rfl | rfl | rfl | rfl |
    rfl | rfl <;> decide +kernel

/-- A method sees only the parameters: it gives the same result on any two objects on which `__init__`
was last run with the same arguments. -/
def Cls.Respects {α : Type} (c : Cls) (f : Attrs → α) : Prop :=
  ∀ p a₁ a₂, c.State p a₁ → c.State p a₂ → f a₁ = f a₂

/-- Static check of a method: it reads only attributes that the constructor always assigns, or that
it assigns unless a parameter is `None` which the method refuses first. -/
def Cls.safe (c : Cls) (m : Meth) : Bool :=
  m.needs.all (fun y => (defs c.body []).contains y) &&
  m.body.reads.all (fun x => (defs c.body []).contains x ||
    m.needs.any (fun y => match paramOf y c.body none with
      | some p => (gdefs c.body []).contains (p, x)
      | none => false))

theorem Cls.Respects.of_safe {c : Cls} (hc : c.Lawful) {m : Meth} (h : c.safe m = true) :
    c.Respects m.run := by
  intro p a₁ a₂ h₁ h₂
  have ag := State.agree hc h₁ h₂
  simp only [Cls.safe, Bool.and_eq_true, List.all_eq_true] at h
  have hneeds : ∀ y ∈ m.needs, a₁ y = a₂ y := fun y hy =>
    ag.1 y (List.contains_iff_mem.mp (h.1 y hy))
  unfold Meth.run
  have hany : m.needs.any (isNoneArg a₁) = m.needs.any (isNoneArg a₂) := by
    have : ∀ l : List String, (∀ y ∈ l, a₁ y = a₂ y) →
        l.any (isNoneArg a₁) = l.any (isNoneArg a₂) := by
      intro l hl
      induction l with
      | nil => rfl
      | cons x l ih =>
        simp only [List.any_cons]
        rw [ih (fun y hy => hl y (List.mem_cons_of_mem _ hy))]
        simp only [isNoneArg, hl x (by simp)]
    exact this _ hneeds
  rw [hany]
  split
  · rfl
  · rename_i hn
    refine Expr.eval_congr _ _ _ _ (fun x hx => ?_)
    rcases Bool.or_eq_true _ _ |>.mp (h.2 x hx) with h' | h'
    · exact ag.1 x (List.contains_iff_mem.mp h')
    · obtain ⟨y, hy, hg⟩ := List.any_eq_true.mp h'
      cases hp : paramOf y c.body none with
      | none => rw [hp] at hg; simp at hg
      | some q =>
        rw [hp] at hg
        refine ag.2 (q, x) (List.contains_iff_mem.mp hg) ?_
        obtain ⟨_, b, hb⟩ := h₂
        have hay : a₂ y = p q := exec_paramOf p y q c.body none b a₂ (by simp) hb hp
        have hno : isNoneArg a₂ y = false := by
          by_contra hc'
          exact hn (List.any_eq_true.mpr ⟨y, hy, by simpa using hc'⟩)
        simp only [isNoneArg, hay] at hno
        exact hno

/-- A function of the attributes that the constructor always assigns sees only the parameters. -/
theorem Cls.Respects.of_defs {α : Type} {c : Cls} (hc : c.Lawful) {f : Attrs → α}
    (h : ∀ a₁ a₂, (∀ x ∈ defs c.body [], a₁ x = a₂ x) → f a₁ = f a₂) : c.Respects f :=
  fun _ _ _ h₁ h₂ => h _ _ (State.agree hc h₁ h₂).1

theorem Cls.Respects.getParams {c : Cls} (hc : c.Lawful) : c.Respects c.getParams := by
  refine Cls.Respects.of_defs hc (fun a₁ a₂ h => ?_)
  unfold Cls.getParams
  have : ∀ fs : List (String × String), (∀ f ∈ fs, a₁ f.2 = a₂ f.2) →
      fs.mapM (fun f => (match a₁ f.2 with
        | some v => .ok (f.1, v) | none => .error .attributeError : Except PyErr (String × Val)))
      = fs.mapM (fun f => match a₂ f.2 with
        | some v => .ok (f.1, v) | none => .error .attributeError) := by
    intro fs hfs
    induction fs with
    | nil => rfl
    | cons f fs ih =>
      rw [List.mapM_cons, List.mapM_cons, ih (fun g hg => hfs g (List.mem_cons_of_mem _ hg)),
        hfs f (by simp)]
  exact this _ (fun f hf => h _ (hc.indefs f hf))

/-- `__init__(**kw)` on any existing object against `cls(**kw)`: same exception; and if there is none,
both are in the same parameter state. -/
theorem init_fresh {c : Cls} (hc : c.Lawful) (kw : Dict) (a : Attrs) :
    (c.init kw a).2 = (c.construct kw).2 ∧
    ((c.init kw a).2 = none → ∃ p, bindArgs c.sig kw = .ok p ∧ c.State p (c.init kw a).1
      ∧ c.State p (c.construct kw).1) := by
  unfold Cls.construct Cls.init
  cases hb : bindArgs c.sig kw with
  | error e => simp
  | ok p =>
    simp only
    have he := State.error_indep hc p a Attrs.empty
    refine ⟨he, fun hn => ⟨p, rfl, ?_, ?_⟩⟩
    · exact ⟨bindArgs_isArgs hc.nodup hb, a, Prod.ext rfl hn⟩
    · exact ⟨bindArgs_isArgs hc.nodup hb, Attrs.empty, Prod.ext rfl (he ▸ hn)⟩

/-! ### Histories -/

/-- A sequence of `set_param` calls; stops at the first exception. -/
noncomputable def Cls.runAll (c : Cls) : List (String × Val) → Attrs → Attrs × Option PyErr
  | [], a => (a, none)
  | op :: ops, a =>
    match c.setParam op.1 op.2 a with
    | (a', none) => c.runAll ops a'
    | (a', some e) => (a', some e)

/-- A sequence of `set_param` calls whose exceptions the user catches. -/
noncomputable def Cls.runCatch (c : Cls) (ops : List (String × Val)) (a : Attrs) : Attrs :=
  ops.foldl (fun a op => (c.setParam op.1 op.2 a).1) a

theorem runCatch_readable {c : Cls} (hc : c.Lawful) (ops : List (String × Val)) : ∀ a : Attrs,
    c.Readable a → c.Readable (c.runCatch ops a) := by
  induction ops with
  | nil => intro a h; exact h
  | cons op ops ih => intro a h; exact ih _ (setParam_readable hc h _ _)

theorem bindArgs_insert {sig : List (String × Option Val)} (hnd : (sig.map (·.1)).Nodup)
    {kw : Dict} {p : Attrs} (h : bindArgs sig kw = .ok p) {x : String} (hx : x ∈ sig.map (·.1))
    (v : Val) : bindArgs sig (Dict.insert kw x v) = .ok (Function.update p x (some v)) := by
  obtain ⟨hk, hp, hreq⟩ := bindArgs_ok h
  have hA := bindArgs_isArgs hnd h
  unfold bindArgs
  rw [if_neg, if_neg]
  · congr 1
    funext s
    rw [lookup_insert]
    by_cases e : s = x
    · subst e
      have := (sig_lookup_isSome sig s).mpr hx
      cases hl : List.lookup s sig with
      | none => rw [hl] at this; simp at this
      | some d => simp
    · rw [Function.update_of_ne e, if_neg e, hp]
      rfl
  · rw [List.any_eq_true]
    rintro ⟨q, hq, h'⟩
    rw [lookup_insert] at h'
    by_cases e : q.1 = x
    · simp [e] at h'
    · rw [if_neg e] at h'
      rcases hreq q hq with h1 | h1
      · rw [Bool.and_eq_true, Option.isNone_iff_eq_none] at h'
        rw [h'.1] at h1; simp at h1
      · rw [Bool.and_eq_true, Option.isNone_iff_eq_none, Option.isNone_iff_eq_none] at h'
        rw [h'.2] at h1; simp at h1
  · rw [List.any_eq_true]
    rintro ⟨q, hq, h'⟩
    have h2 : q.1 ∈ (Dict.insert kw x v).map (·.1) := List.mem_map.mpr ⟨q, hq, rfl⟩
    rw [keys_insert] at h2
    have h3 : q.1 ∈ sig.map (·.1) := by
      rcases h2 with h2 | h2
      · rw [h2]; exact hx
      · exact hk _ h2
    have := List.contains_iff_mem.mpr h3
    rw [this] at h'
    simp at h'

/-- The keyword arguments after a history: each effective `set_param` overwrites its parameter. -/
def Cls.kwAfter (c : Cls) (kw : Dict) (ops : List (String × Val)) : Dict :=
  ops.foldl (fun d op => if op.1 ∈ c.sig.map (·.1) then Dict.insert d op.1 op.2 else d) kw

theorem runAll_state {c : Cls} (hc : c.Lawful) (ops : List (String × Val)) : ∀ (kw : Dict)
    (p a a' : Attrs), bindArgs c.sig kw = .ok p → c.State p a → c.runAll ops a = (a', none) →
    ∃ p', bindArgs c.sig (c.kwAfter kw ops) = .ok p' ∧ c.State p' a' := by
  induction ops with
  | nil =>
    intro kw p a a' hb hs hr
    simp only [Cls.runAll, Prod.mk.injEq, and_true] at hr
    subst hr
    exact ⟨p, hb, hs⟩
  | cons op ops ih =>
    intro kw p a a' hb hs hr
    simp only [Cls.runAll] at hr
    split at hr
    · rename_i a'' h''
      have hst := setParam_state hc (State.readable hc hs) h''
      rw [State.paramsOf hc hs] at hst
      refine ih (if op.1 ∈ c.sig.map (·.1) then Dict.insert kw op.1 op.2 else kw)
        (c.newParams op.1 op.2 p) a'' a' ?_ hst hr
      unfold Cls.newParams
      split
      · exact bindArgs_insert hc.nodup hb (by assumption) _
      · exact hb
    · simp at hr

/-- A fresh object can be built from the arguments of any object state. -/
theorem construct_of_state {c : Cls} (hc : c.Lawful) {kw : Dict} {p a : Attrs}
    (hb : bindArgs c.sig kw = .ok p) (h : c.State p a) :
    ∃ a', c.construct kw = (a', none) ∧ c.State p a' := by
  unfold Cls.construct Cls.init
  rw [hb]
  simp only
  obtain ⟨hp, a₀, h0⟩ := h
  have := State.error_indep hc p Attrs.empty a₀
  rw [h0] at this
  exact ⟨_, Prod.ext rfl this, hp, _, Prod.ext rfl this⟩

/-! ### Finite differences -/

/-- The price of a freshly built option: the parameters `d` with `wrt` replaced by `x`. -/
noncomputable def Cls.freshPrice (c : Cls) (price : Attrs → Except PyErr Val) (d : Dict)
    (wrt : String) (x : Val) : Except PyErr Val :=
  match c.construct (c.drop.foldl Dict.del (Dict.insert d wrt x)) with
  | (a, none) => price a
  | (_, some e) => .error e

/-- Run a rule against a pure function. -/
def Rule.runPure (f : Val → Except PyErr Val) : Rule → Except PyErr Val
  | .done v => .ok v
  | .fail e => .error e
  | .ask x k => match f x with
    | .ok y => (k y).runPure f
    | .error e => .error e

/-- `m` returns `r` and only allocates: every object that existed before is as it was. -/
def Harmless {α : Type} (m : HeapM α) (h : Heap) (r : Except PyErr α) : Prop :=
  ∃ extra, m h = (r, h ++ extra)

theorem getD_append_left {h extra : Heap} {i : ℕ} (hi : i < h.length) :
    (h ++ extra).getD i Attrs.empty = h.getD i Attrs.empty := by
  simp [List.getD_eq_getElem?_getD, List.getElem?_append_left hi]

theorem Harmless.bind {α β : Type} {m : HeapM α} {k : α → HeapM β} {h : Heap} {r : Except PyErr α}
    {r' : α → Except PyErr β} (hm : Harmless m h r)
    (hk : ∀ v extra, r = .ok v → Harmless (k v) (h ++ extra) (r' v)) :
    Harmless (m >>= k) h (r >>= r') := by
  obtain ⟨ex, hm⟩ := hm
  cases r with
  | error e =>
    refine ⟨ex, ?_⟩
    change (ExceptT.bind m k : HeapM β) h = _
    simp only [ExceptT.bind, ExceptT.mk]
    change (StateT.bind m _ : StateM Heap _) h = _
    simp only [StateT.bind, hm]
    rfl
  | ok v =>
    obtain ⟨ex', hk⟩ := hk v ex rfl
    refine ⟨ex ++ ex', ?_⟩
    change (ExceptT.bind m k : HeapM β) h = _
    simp only [ExceptT.bind, ExceptT.mk]
    change (StateT.bind m _ : StateM Heap _) h = _
    simp only [StateT.bind, hm]
    change (k v) (h ++ ex) = _
    rw [hk, List.append_assoc]
    rfl

theorem Harmless.lift {α : Type} (e : Except PyErr α) (h : Heap) :
    Harmless (HeapM.lift e) h e := ⟨[], by simp [HeapM.lift]⟩

theorem Harmless.method (m : Attrs → Except PyErr Val) {i : ℕ} {h : Heap} :
    Harmless (HeapM.method m i) h (m (h.getD i Attrs.empty)) := ⟨[], by simp [HeapM.method]⟩

/-- base.py:161-178: evaluating `_func(x)` only allocates, and returns the price of a freshly built
option with one parameter replaced. -/
theorem fdmFunc_harmless {c : Cls} (hc : c.Lawful) {cl pt : Attrs → Except PyErr Val}
    (hcl : c.Respects cl) (hpt : c.Respects pt) (wrt : String) (call : Bool) {i : ℕ} {h : Heap}
    {a : Attrs} (ha : h.getD i Attrs.empty = a) {d : Dict} (hd : c.getParams a = .ok d)
    (x : Val) :
    Harmless (fdmFunc c cl pt wrt call i x) h
      (c.freshPrice (if call then cl else pt) d wrt x) := by
  have hif := init_fresh hc (c.drop.foldl Dict.del (Dict.insert d wrt x)) a
  have hset : c.setParam wrt x a = c.init (c.drop.foldl Dict.del (Dict.insert d wrt x)) a := by
    unfold Cls.setParam; rw [hd]
  have hlast : (h ++ [a]).getD h.length Attrs.empty = a := by simp [List.getD_eq_getElem?_getD]
  have hsetl : ∀ a' : Attrs, (h ++ [a]).set h.length a' = h ++ [a'] := by
    intro a'; rw [List.set_append_right _ _ le_rfl]; simp
  have hlast' : ∀ a' : Attrs, (h ++ [a']).getD h.length Attrs.empty = a' := by
    intro a'; simp [List.getD_eq_getElem?_getD]
  refine ⟨[(c.setParam wrt x a).1], ?_⟩
  have hfresh : c.freshPrice (if call then cl else pt) d wrt x =
      match (c.setParam wrt x a).2 with
      | none => (if call then cl else pt) (c.setParam wrt x a).1
      | some e => .error e := by
    unfold Cls.freshPrice
    rw [hset]
    cases he : (c.init (c.drop.foldl Dict.del (Dict.insert d wrt x)) a).2 with
    | some e =>
      have h2 := hif.1
      rw [he] at h2
      rw [show c.construct (c.drop.foldl Dict.del (Dict.insert d wrt x))
        = ((c.construct (c.drop.foldl Dict.del (Dict.insert d wrt x))).1, some e) from
        Prod.ext rfl h2.symm]
    | none =>
      have h2 := hif.1
      rw [he] at h2
      obtain ⟨p, _, s1, s2⟩ := hif.2 he
      rw [show c.construct (c.drop.foldl Dict.del (Dict.insert d wrt x))
        = ((c.construct (c.drop.foldl Dict.del (Dict.insert d wrt x))).1, none) from
        Prod.ext rfl h2.symm]
      simp only
      cases call
      · exact hpt p _ _ s2 s1
      · exact hcl p _ _ s2 s1
  rw [hfresh]
  have e1 : (fdmFunc c cl pt wrt call i x) h =
      (match (c.setParam wrt x a).2 with
        | none => ((if call then cl else pt) (c.setParam wrt x a).1, h ++ [(c.setParam wrt x a).1])
        | some e => (.error e, h ++ [(c.setParam wrt x a).1])) := by
    unfold fdmFunc
    change (ExceptT.bind (HeapM.copy i) _ : HeapM Val) h = _
    simp only [ExceptT.bind, ExceptT.mk]
    change (StateT.bind (HeapM.copy i) _ : StateM Heap _) h = _
    simp only [StateT.bind, HeapM.copy, ha]
    change (ExceptT.bind (HeapM.setParam c h.length wrt x) _ : HeapM Val) (h ++ [a]) = _
    simp only [ExceptT.bind, ExceptT.mk]
    change (StateT.bind (HeapM.setParam c h.length wrt x) _ : StateM Heap _) (h ++ [a]) = _
    simp only [StateT.bind, HeapM.setParam, hlast, hsetl]
    cases he : (c.setParam wrt x a).2 with
    | some e => rfl
    | none =>
      simp only
      cases call
      · change (pt ((h ++ [(c.setParam wrt x a).1]).getD h.length Attrs.empty), _) = _
        rw [hlast']; rfl
      · change (cl ((h ++ [(c.setParam wrt x a).1]).getD h.length Attrs.empty), _) = _
        rw [hlast']; rfl
  rw [e1]
  cases (c.setParam wrt x a).2 <;> rfl

theorem rule_harmless {f : Val → HeapM Val} {g : Val → Except PyErr Val} {i : ℕ} {a : Attrs}
    (hf : ∀ (h : Heap) (x : Val), i < h.length → h.getD i Attrs.empty = a → Harmless (f x) h (g x))
    (rule : Rule) : ∀ h : Heap, i < h.length → h.getD i Attrs.empty = a →
    Harmless (rule.run f) h (rule.runPure g) := by
  induction rule with
  | done v => intro h _ _; exact ⟨[], by simp [Rule.run, Rule.runPure]; rfl⟩
  | fail e => intro h _ _; exact Harmless.lift _ _
  | ask x k ih =>
    intro h hi ha
    have h1 := hf h x hi ha
    have h2 := Harmless.bind (k := fun y => (k y).run f) (r' := fun y => (k y).runPure g) h1
      (fun v extra _ => ih v (h ++ extra) (by simp; omega) (by rw [getD_append_left hi]; exact ha))
    have e : ((g x) >>= fun y => (k y).runPure g) = (Rule.ask x k).runPure g := by
      simp only [Rule.runPure]
      cases g x <;> rfl
    rw [← e]
    exact h2

end Verif
