import Verif.Model.Classes

/-!
Metatheory of constructor bodies: static checks on the syntax of a class and what they imply about
`__init__`, `get_params` and `set_param` on arbitrary objects.
-/
namespace Verif

/-! ### Static checks -/

/-- Attribute `x` may be read: it has been assigned unconditionally (`D`), or under the same guard. -/
def covered (D : List String) (G : List (String × String)) (p : Option String) (x : String) : Bool :=
  D.contains x || (match p with | some p => G.contains (p, x) | none => false)

/-- Every attribute read by the body has been assigned earlier in the body. -/
def wfBody : List Stmt → List String → List (String × String) → Bool
  | [], _, _ => true
  | .assign x e :: l, D, G => e.reads.all (covered D G none) && wfBody l (x :: D) G
  | .assignIf p x e :: l, D, G => e.reads.all (covered D G (some p)) && wfBody l D ((p, x) :: G)
  | .noArrays _ :: l, D, G => wfBody l D G

/-- Attributes assigned unconditionally. -/
def defs : List Stmt → List String → List String
  | [], D => D
  | .assign x _ :: l, D => defs l (x :: D)
  | .assignIf _ _ _ :: l, D => defs l D
  | .noArrays _ :: l, D => defs l D

/-- Attributes assigned under `if p is not None`. -/
def gdefs : List Stmt → List (String × String) → List (String × String)
  | [], G => G
  | .assign _ _ :: l, G => gdefs l G
  | .assignIf p x _ :: l, G => gdefs l ((p, x) :: G)
  | .noArrays _ :: l, G => gdefs l G

/-- The parameter that the last assignment to `x` stores unchanged, if it is of that form. -/
def paramOf (x : String) : List Stmt → Option String → Option String
  | [], cur => cur
  | .assign y e :: l, cur =>
    paramOf x l (if y = x then (match e with | .arg k => some k | _ => none) else cur)
  | .assignIf _ y _ :: l, cur => paramOf x l (if y = x then none else cur)
  | .noArrays _ :: l, cur => paramOf x l cur

/-- Parameter names of the constructor. -/
def Cls.names (c : Cls) : List String := c.sig.map (·.1)

/-- The checks together. -/
def Cls.lawful (c : Cls) : Bool :=
  wfBody c.body [] []
  && decide c.names.Nodup
  && decide (c.fields.map (·.1)).Nodup
  && c.fields.all (fun f => c.drop.contains f.1 || paramOf f.2 c.body none == some f.1)
  && c.fields.all (fun f => c.drop.contains f.1 || c.names.contains f.1)
  && c.fields.all (fun f => (defs c.body []).contains f.2)
  && c.names.all (fun s => (c.fields.map (·.1)).contains s && !c.drop.contains s)

/-! ### Evaluation depends only on the attributes read -/

theorem Expr.eval_congr (args a₁ a₂ : Attrs) (e : Expr) (h : ∀ x ∈ e.reads, a₁ x = a₂ x) :
    e.eval args a₁ = e.eval args a₂ := by
  induction e with
  | arg x => rfl
  | attr x => simp only [Expr.eval]; rw [h x (by simp [Expr.reads])]
  | lit x => rfl
  | noneLit => rfl
  | un f e ih => simp only [Expr.eval]; rw [ih h]
  | bin f e₁ e₂ ih₁ ih₂ =>
    simp only [Expr.eval]
    rw [ih₁ (fun x hx => h x (by simp [Expr.reads, hx])),
      ih₂ (fun x hx => h x (by simp [Expr.reads, hx]))]
  | pdiv e₁ e₂ ih₁ ih₂ =>
    simp only [Expr.eval]
    rw [ih₁ (fun x hx => h x (by simp [Expr.reads, hx])),
      ih₂ (fun x hx => h x (by simp [Expr.reads, hx]))]
  | ite c e₁ e₂ ihc ih₁ ih₂ =>
    simp only [Expr.eval]
    rw [ihc (fun x hx => h x (by simp [Expr.reads, hx])),
      ih₁ (fun x hx => h x (by simp [Expr.reads, hx])),
      ih₂ (fun x hx => h x (by simp [Expr.reads, hx]))]

/-- Two stores agree on the unconditionally assigned attributes and, for guards that are not `None`,
on the guarded ones. -/
def Agree (args : Attrs) (D : List String) (G : List (String × String)) (a₁ a₂ : Attrs) : Prop :=
  (∀ x ∈ D, a₁ x = a₂ x) ∧ ∀ q ∈ G, isNoneArg args q.1 = false → a₁ q.2 = a₂ q.2

theorem Agree.set {args : Attrs} {D G} {a₁ a₂ : Attrs} (h : Agree args D G a₁ a₂) (x : String)
    (v : Val) : Agree args D G (a₁.set x v) (a₂.set x v) := by
  refine ⟨fun y hy => ?_, fun q hq hn => ?_⟩
  · by_cases e : y = x
    · subst e; simp [Attrs.set]
    · simp [Attrs.set, e, h.1 y hy]
  · by_cases e : q.2 = x
    · simp [Attrs.set, e]
    · simp [Attrs.set, e, h.2 q hq hn]

theorem Agree.covered {args : Attrs} {D G} {a₁ a₂ : Attrs} (h : Agree args D G a₁ a₂)
    {p : Option String} (hp : ∀ q, p = some q → isNoneArg args q = false) {x : String}
    (hx : covered D G p x = true) : a₁ x = a₂ x := by
  unfold Verif.covered at hx
  rcases Bool.or_eq_true _ _ |>.mp hx with h' | h'
  · exact h.1 x (by simpa using h')
  · cases p with
    | none => simp at h'
    | some q => exact h.2 (q, x) (by simpa using h') (hp q rfl)

/-- Running a well-formed body on two objects that agree on what has been assigned so far raises the
same exception, and otherwise leaves objects that agree on everything assigned. -/
theorem exec_agree (args : Attrs) (l : List Stmt) : ∀ (D : List String) (G : List (String × String))
    (a₁ a₂ : Attrs), wfBody l D G = true → Agree args D G a₁ a₂ →
    (exec args l a₁).2 = (exec args l a₂).2 ∧
    ((exec args l a₁).2 = none →
      Agree args (defs l D) (gdefs l G) (exec args l a₁).1 (exec args l a₂).1) := by
  induction l with
  | nil => intro D G a₁ a₂ _ h; exact ⟨rfl, fun _ => h⟩
  | cons s l ih =>
    intro D G a₁ a₂ hwf h
    cases s with
    | assign x e =>
      simp only [wfBody, Bool.and_eq_true, List.all_eq_true] at hwf
      have he : e.eval args a₁ = e.eval args a₂ :=
        Expr.eval_congr _ _ _ _ (fun y hy => h.covered (by simp) (hwf.1 y hy))
      simp only [exec, he]
      cases hv : e.eval args a₂ with
      | error err => simp
      | ok v =>
        simp only
        refine ih _ _ _ _ hwf.2 ⟨fun y hy => ?_, (h.set x v).2⟩
        rcases List.mem_cons.mp hy with rfl | hy
        · simp [Attrs.set]
        · exact (h.set x v).1 y hy
    | assignIf p x e =>
      simp only [wfBody, Bool.and_eq_true, List.all_eq_true] at hwf
      cases hn : isNoneArg args p with
      | true =>
        simp only [exec, hn, if_true]
        refine ih _ _ _ _ hwf.2 ⟨h.1, fun q hq hq' => ?_⟩
        rcases List.mem_cons.mp hq with rfl | hq
        · simp only at hq'; rw [hn] at hq'; cases hq'
        · exact h.2 q hq hq'
      | false =>
        have he : e.eval args a₁ = e.eval args a₂ :=
          Expr.eval_congr _ _ _ _ (fun y hy => h.covered
            (by rintro q ⟨⟩; exact hn) (hwf.1 y hy))
        simp only [exec, hn, he]
        cases hv : e.eval args a₂ with
        | error err => simp
        | ok v =>
          simp only [Bool.false_eq_true, if_false]
          refine ih _ _ _ _ hwf.2 ⟨(h.set x v).1, fun q hq hq' => ?_⟩
          rcases List.mem_cons.mp hq with rfl | hq
          · simp [Attrs.set]
          · exact (h.set x v).2 q hq hq'
    | noArrays ps =>
      simp only [exec]
      split
      · simp
      · exact ih _ _ _ _ hwf h

/-- After a run without exception every unconditionally assigned attribute exists. -/
theorem exec_defs (args : Attrs) (l : List Stmt) : ∀ (D : List String) (a a' : Attrs),
    (∀ x ∈ D, (a x).isSome) → exec args l a = (a', none) → ∀ x ∈ defs l D, (a' x).isSome := by
  have hset : ∀ (a : Attrs) (x y : String) (v : Val), (a y).isSome → ((a.set x v) y).isSome := by
    intro a x y v h
    by_cases e : y = x <;> simp [Attrs.set, e, h]
  induction l with
  | nil => intro D a a' h h'; simp only [exec, Prod.mk.injEq, and_true] at h'; subst h'; exact h
  | cons s l ih =>
    intro D a a' h h'
    cases s with
    | assign x e =>
      simp only [exec] at h'
      split at h'
      · rename_i v _
        refine ih (x :: D) _ a' (fun y hy => ?_) h'
        rcases List.mem_cons.mp hy with rfl | hy
        · simp [Attrs.set]
        · exact hset _ _ _ _ (h y hy)
      · simp at h'
    | assignIf p x e =>
      simp only [exec] at h'
      split at h'
      · exact ih D _ a' h h'
      · split at h'
        · exact ih D _ a' (fun y hy => hset _ _ _ _ (h y hy)) h'
        · simp at h'
    | noArrays ps =>
      simp only [exec] at h'
      split at h'
      · simp at h'
      · exact ih D _ a' h h'

/-- After a run without exception, an attribute whose last assignment stores a parameter holds that
parameter. -/
theorem exec_paramOf (args : Attrs) (x k : String) (l : List Stmt) : ∀ (cur : Option String)
    (a a' : Attrs), (∀ k, cur = some k → a x = args k) → exec args l a = (a', none) →
    paramOf x l cur = some k → a' x = args k := by
  induction l with
  | nil =>
    intro cur a a' h h' hk
    simp only [exec, Prod.mk.injEq, and_true] at h'; subst h'; exact h k hk
  | cons s l ih =>
    intro cur a a' h h' hk
    cases s with
    | assign y e =>
      simp only [exec] at h'
      simp only [paramOf] at hk
      split at h'
      · rename_i v hv
        refine ih _ _ a' (fun k' hk' => ?_) h' hk
        split at hk'
        · rename_i hy
          subst hy
          split at hk'
          · rename_i k'' 
            injection hk' with hk'
            subst hk'
            simp only [Expr.eval] at hv
            split at hv
            · rename_i w hw
              injection hv with hv
              subst hv
              simp [Attrs.set, hw]
            · cases hv
          · cases hk'
        · rename_i hy
          simp [Attrs.set, Ne.symm hy, h k' hk']
      · simp at h'
    | assignIf p y e =>
      simp only [exec] at h'
      simp only [paramOf] at hk
      have key : ∀ k', (if y = x then none else cur) = some k' → y ≠ x ∧ cur = some k' := by
        intro k' hk'
        split at hk'
        · cases hk'
        · exact ⟨by assumption, hk'⟩
      split at h'
      · exact ih _ _ a' (fun k' hk' => h k' (key k' hk').2) h' hk
      · split at h'
        · refine ih _ _ a' (fun k' hk' => ?_) h' hk
          obtain ⟨hne, hc⟩ := key k' hk'
          simp [Attrs.set, Ne.symm hne, h k' hc]
        · simp at h'
    | noArrays ps =>
      simp only [exec] at h'
      simp only [paramOf] at hk
      split at h'
      · simp at h'
      · exact ih _ _ a' h h' hk

/-! ### Dictionaries -/

theorem lookup_insert (d : Dict) (x y : String) (v : Val) :
    List.lookup y (Dict.insert d x v) = if y = x then some v else List.lookup y d := by
  unfold Dict.insert
  split
  · rename_i h
    induction d with
    | nil => simp at h
    | cons kv d ih =>
      obtain ⟨k, w⟩ := kv
      by_cases hk : k = x
      · subst hk
        simp only [List.map_cons, beq_self_eq_true, if_true]
        by_cases hy : y = k
        · subst hy; simp
        · simp only [List.lookup_cons, beq_eq_false_iff_ne.mpr hy, if_neg hy]
          clear ih h
          induction d with
          | nil => rfl
          | cons kv d ih =>
            obtain ⟨k', w'⟩ := kv
            simp only [List.map_cons]
            by_cases hk' : k' = k
            · subst hk'
              simp only [beq_self_eq_true, if_true, List.lookup_cons, beq_eq_false_iff_ne.mpr hy]
              exact ih
            · simp only [beq_eq_false_iff_ne.mpr hk', Bool.false_eq_true, if_false,
                List.lookup_cons]
              split
              · rfl
              · exact ih
      · have h' : d.any (fun kv => kv.1 == x) = true := by
          simpa [hk] using h
        simp only [List.map_cons, beq_eq_false_iff_ne.mpr hk, Bool.false_eq_true, if_false,
          List.lookup_cons]
        by_cases hy : y = k
        · subst hy; simp [hk]
        · simp only [beq_eq_false_iff_ne.mpr hy]
          exact ih h'
  · rename_i h
    induction d with
    | nil => 
      by_cases hy : y = x
      · subst hy; simp
      · simp [hy, List.lookup_cons, beq_eq_false_iff_ne.mpr hy]
    | cons kv d ih =>
      obtain ⟨k, w⟩ := kv
      have hk : k ≠ x := by
        intro e; subst e; simp at h
      have h' : ¬ d.any (fun kv => kv.1 == x) = true := by
        intro h''; apply h; simp [h'']
      simp only [List.cons_append, List.lookup_cons]
      by_cases hy : y = k
      · subst hy; simp [hk]
      · simp only [beq_eq_false_iff_ne.mpr hy]
        exact ih h'

theorem keys_insert (d : Dict) (x y : String) (v : Val) :
    y ∈ (Dict.insert d x v).map (·.1) ↔ y = x ∨ y ∈ d.map (·.1) := by
  unfold Dict.insert
  split
  · rename_i h
    rw [List.any_eq_true] at h
    obtain ⟨kv, hkv, e⟩ := h
    have e : kv.1 = x := by simpa using e
    rw [List.map_map]
    have : ((fun kv : String × Val => kv.1) ∘ fun kv => if (kv.1 == x) = true then (x, v) else kv)
        = fun kv => kv.1 := by
      funext kv
      simp only [Function.comp]
      split
      · rename_i h; simp at h; exact h.symm
      · rfl
    rw [this]
    constructor
    · exact Or.inr
    · rintro (rfl | h)
      · exact List.mem_map.mpr ⟨kv, hkv, e⟩
      · exact h
  · simp only [List.map_append, List.map_cons, List.map_nil, List.mem_append, List.mem_singleton]
    tauto

theorem lookup_del (d : Dict) (x y : String) :
    List.lookup y (Dict.del d x) = if y = x then none else List.lookup y d := by
  unfold Dict.del
  induction d with
  | nil => simp
  | cons kv d ih =>
    obtain ⟨k, w⟩ := kv
    by_cases hk : k = x
    · subst hk
      simp only [List.filter_cons, bne_self_eq_false, Bool.false_eq_true, if_false, ih,
        List.lookup_cons]
      by_cases hy : y = k
      · simp [hy]
      · simp [hy, beq_eq_false_iff_ne.mpr hy]
    · simp only [List.filter_cons, bne_iff_ne.mpr hk, if_true, List.lookup_cons]
      by_cases hy : y = k
      · subst hy; simp [hk]
      · simp only [beq_eq_false_iff_ne.mpr hy, ih]

theorem keys_del (d : Dict) (x y : String) :
    y ∈ (Dict.del d x).map (·.1) ↔ y ≠ x ∧ y ∈ d.map (·.1) := by
  unfold Dict.del
  simp only [List.mem_map, List.mem_filter, bne_iff_ne, ne_eq]
  constructor
  · rintro ⟨kv, ⟨h1, h2⟩, rfl⟩; exact ⟨h2, kv, h1, rfl⟩
  · rintro ⟨h, kv, h1, rfl⟩; exact ⟨kv, ⟨h1, h⟩, rfl⟩

theorem lookup_drops (ds : List String) (y : String) : ∀ d : Dict,
    List.lookup y (ds.foldl Dict.del d) = if y ∈ ds then none else List.lookup y d := by
  induction ds with
  | nil => intro d; simp
  | cons x ds ih =>
    intro d
    simp only [List.foldl_cons, ih, lookup_del, List.mem_cons]
    by_cases h1 : y = x <;> by_cases h2 : y ∈ ds <;> simp [h1, h2]

theorem keys_drops (ds : List String) (y : String) : ∀ d : Dict,
    y ∈ (ds.foldl Dict.del d).map (·.1) ↔ y ∉ ds ∧ y ∈ d.map (·.1) := by
  induction ds with
  | nil => intro d; simp
  | cons x ds ih =>
    intro d
    simp only [List.foldl_cons, ih, keys_del, List.mem_cons]
    tauto

theorem lookup_isSome_iff (d : Dict) (y : String) :
    (List.lookup y d).isSome ↔ y ∈ d.map (·.1) := by
  induction d with
  | nil => simp
  | cons kv d ih =>
    obtain ⟨k, w⟩ := kv
    simp only [List.lookup_cons, List.map_cons, List.mem_cons]
    by_cases hy : y = k
    · subst hy; simp
    · simp only [beq_eq_false_iff_ne.mpr hy, ih, hy, false_or]

theorem sig_lookup_isSome (sig : List (String × Option Val)) (y : String) :
    (List.lookup y sig).isSome ↔ y ∈ sig.map (·.1) := by
  induction sig with
  | nil => simp
  | cons kv d ih =>
    obtain ⟨k, w⟩ := kv
    simp only [List.lookup_cons, List.map_cons, List.mem_cons]
    by_cases hy : y = k
    · subst hy; simp
    · simp only [beq_eq_false_iff_ne.mpr hy, ih, hy, false_or]

/-! ### Binding -/

/-- `p` binds exactly the parameters of `sig`. -/
def IsArgs (sig : List (String × Option Val)) (p : Attrs) : Prop :=
  ∀ s, (p s).isSome ↔ s ∈ sig.map (·.1)

/-- All keys are parameters and all parameters without default are given. -/
theorem bindArgs_ok {sig : List (String × Option Val)} {kw : Dict} {p : Attrs}
    (h : bindArgs sig kw = .ok p) :
    (∀ k ∈ kw.map (·.1), k ∈ sig.map (·.1)) ∧
    p = (fun s => match sig.lookup s with
      | none => none
      | some d => (kw.lookup s).orElse (fun _ => d)) ∧
    ∀ q ∈ sig, (kw.lookup q.1).isSome ∨ q.2.isSome := by
  unfold bindArgs at h
  split at h
  · cases h
  · rename_i h1
    split at h
    · cases h
    · rename_i h2
      injection h with h
      refine ⟨fun k hk => ?_, h.symm, fun q hq => ?_⟩
      · obtain ⟨kv, hkv, rfl⟩ := List.mem_map.mp hk
        by_contra hc
        apply h1
        rw [List.any_eq_true]
        exact ⟨kv, hkv, by simpa using hc⟩
      · by_contra hc
        apply h2
        rw [List.any_eq_true]
        refine ⟨q, hq, ?_⟩
        simp only [not_or, Option.not_isSome_iff_eq_none] at hc
        simp [hc.1, hc.2]

theorem lookup_mem {sig : List (String × Option Val)} (hnd : (sig.map (·.1)).Nodup)
    {s : String} {d : Option Val} (h : List.lookup s sig = some d) : (s, d) ∈ sig := by
  induction sig with
  | nil => simp at h
  | cons kv sig ih =>
    obtain ⟨k, w⟩ := kv
    simp only [List.lookup_cons] at h
    by_cases hs : s = k
    · subst hs
      simp only [beq_self_eq_true, Option.some.injEq] at h
      subst h; simp
    · simp only [beq_eq_false_iff_ne.mpr hs] at h
      simp only [List.map_cons, List.nodup_cons] at hnd
      exact List.mem_cons_of_mem _ (ih hnd.2 h)

theorem bindArgs_isArgs {sig : List (String × Option Val)} (hnd : (sig.map (·.1)).Nodup)
    {kw : Dict} {p : Attrs} (h : bindArgs sig kw = .ok p) : IsArgs sig p := by
  obtain ⟨_, hp, hreq⟩ := bindArgs_ok h
  intro s
  subst hp
  rw [← sig_lookup_isSome]
  simp only
  cases hl : List.lookup s sig with
  | none => simp
  | some d =>
    have := hreq _ (lookup_mem hnd hl)
    simp only [Option.isSome_some, iff_true]
    cases hk : List.lookup s kw with
    | some v => simp
    | none => rw [hk] at this; simpa using this

/-- Binding succeeds with `p` as soon as the dictionary has only parameters as keys and gives every
parameter its value in `p`. -/
theorem bindArgs_of_lookup {sig : List (String × Option Val)} {kw : Dict} {p : Attrs}
    (hp : IsArgs sig p) (hk : ∀ k ∈ kw.map (·.1), k ∈ sig.map (·.1))
    (hl : ∀ s ∈ sig.map (·.1), kw.lookup s = p s) : bindArgs sig kw = .ok p := by
  unfold bindArgs
  rw [if_neg, if_neg]
  · congr 1
    funext s
    cases h : List.lookup s sig with
    | none =>
      have : ¬ (List.lookup s sig).isSome := by simp [h]
      rw [sig_lookup_isSome, ← hp s] at this
      simpa using Eq.symm (a := p s) (by simpa using this)
    | some d =>
      have : (List.lookup s sig).isSome := by simp [h]
      rw [sig_lookup_isSome] at this
      have h2 := (hp s).mpr this
      simp only [hl s this]
      cases hps : p s with
      | none => rw [hps] at h2; simp at h2
      | some v => simp
  · rw [List.any_eq_true]
    rintro ⟨q, hq, h⟩
    have hm : q.1 ∈ sig.map (·.1) := List.mem_map.mpr ⟨q, hq, rfl⟩
    rw [hl _ hm] at h
    have := (hp q.1).mpr hm
    cases hps : p q.1 with
    | none => rw [hps] at this; simp at this
    | some v => rw [hps] at h; simp at h
  · rw [List.any_eq_true]
    rintro ⟨q, hq, h⟩
    have := hk q.1 (List.mem_map.mpr ⟨q, hq, rfl⟩)
    simp at h this
    obtain ⟨d, hd⟩ := this
    exact h d hd

/-- A key that is not a parameter raises `TypeError`. -/
theorem bindArgs_unknown {sig : List (String × Option Val)} {kw : Dict} {x : String}
    (hx : x ∈ kw.map (·.1)) (hs : x ∉ sig.map (·.1)) : bindArgs sig kw = .error .typeError := by
  unfold bindArgs
  rw [if_pos]
  rw [List.any_eq_true]
  obtain ⟨kv, hkv, rfl⟩ := List.mem_map.mp hx
  exact ⟨kv, hkv, by simpa using hs⟩

/-! ### `get_params` and `set_param` on an object produced by the constructor -/

/-- The checks, unpacked. -/
structure Cls.Lawful (c : Cls) : Prop where
  wf : wfBody c.body [] [] = true
  nodup : (c.sig.map (·.1)).Nodup
  fnodup : (c.fields.map (·.1)).Nodup
  param : ∀ f ∈ c.fields, f.1 ∉ c.drop → paramOf f.2 c.body none = some f.1
  inSig : ∀ f ∈ c.fields, f.1 ∉ c.drop → f.1 ∈ c.sig.map (·.1)
  indefs : ∀ f ∈ c.fields, f.2 ∈ defs c.body []
  infields : ∀ s ∈ c.sig.map (·.1), s ∈ c.fields.map (·.1)
  notdrop : ∀ s ∈ c.sig.map (·.1), s ∉ c.drop

theorem Cls.Lawful.of (c : Cls) (h : c.lawful = true) : c.Lawful := by
  simp only [Cls.lawful, Bool.and_eq_true, decide_eq_true_eq, List.all_eq_true, Bool.or_eq_true,
    beq_iff_eq, Bool.not_eq_true', Cls.names] at h
  obtain ⟨⟨⟨⟨⟨⟨h1, h2⟩, h3⟩, h4⟩, h5⟩, h6⟩, h7⟩ := h
  refine ⟨h1, of_decide_eq_true h2, h3, fun f hf hd => ?_, fun f hf hd => ?_, fun f hf => ?_, fun s hs => ?_,
    fun s hs => ?_⟩
  · exact (h4 f hf).resolve_left (by simpa using hd)
  · have := (h5 f hf).resolve_left (by simpa using hd); exact List.contains_iff_mem.mp this
  · exact List.contains_iff_mem.mp (h6 f hf)
  · exact List.contains_iff_mem.mp (h7 s hs).1
  · intro hc
    have := (h7 s hs).2
    rw [List.contains_iff_mem.mpr hc] at this
    cases this

/-- The object state is what `__init__` leaves when bound to `p` (run on some earlier object). -/
def Cls.State (c : Cls) (p a : Attrs) : Prop :=
  IsArgs c.sig p ∧ ∃ a₀, exec p c.body a₀ = (a, none)

theorem getParams_eq (c : Cls) (a : Attrs) (h : ∀ f ∈ c.fields, (a f.2).isSome) :
    c.getParams a = .ok (c.fields.map (fun f => (f.1, (a f.2).getD .none))) := by
  unfold Cls.getParams
  generalize c.fields = fs at h
  induction fs with
  | nil => rfl
  | cons f fs ih =>
    rw [List.mapM_cons, ih (fun g hg => h g (List.mem_cons_of_mem _ hg))]
    have := h f (by simp)
    cases hf : a f.2 with
    | none => rw [hf] at this; simp at this
    | some v => simp [hf, pure, bind, Except.pure, Except.bind]

theorem lookup_fields (fs : List (String × String)) (hnd : (fs.map (·.1)).Nodup)
    (g : String → Val) (f : String × String) (hf : f ∈ fs) :
    List.lookup f.1 (fs.map (fun f => (f.1, g f.2))) = some (g f.2) := by
  induction fs with
  | nil => simp at hf
  | cons f' fs ih =>
    simp only [List.map_cons, List.nodup_cons] at hnd
    simp only [List.map_cons, List.lookup_cons]
    rcases List.mem_cons.mp hf with rfl | hf
    · simp
    · have : f.1 ≠ f'.1 := by
        intro e; apply hnd.1; rw [← e]; exact List.mem_map.mpr ⟨f, hf, rfl⟩
      simp only [beq_eq_false_iff_ne.mpr this]
      exact ih hnd.2 hf

theorem State.getParams {c : Cls} (hc : c.Lawful) {p a : Attrs} (h : c.State p a) :
    c.getParams a = .ok (c.fields.map (fun f => (f.1, (a f.2).getD .none))) ∧
    ∀ f ∈ c.fields, f.1 ∉ c.drop → a f.2 = p f.1 := by
  obtain ⟨hp, a₀, h0⟩ := h
  refine ⟨getParams_eq c a (fun f hf => ?_), fun f hf hd => ?_⟩
  · exact exec_defs p c.body [] a₀ a (by simp) h0 _ (hc.indefs f hf)
  · exact exec_paramOf p f.2 f.1 c.body none a₀ a (by simp) h0 (hc.param f hf hd)

/-- Every attribute that `get_params` reads exists. -/
def Cls.Readable (c : Cls) (a : Attrs) : Prop := ∀ f ∈ c.fields, (a f.2).isSome

/-- The constructor arguments as `get_params` shows them. -/
def Cls.paramsOf (c : Cls) (a : Attrs) : Attrs := fun s =>
  if s ∈ c.sig.map (·.1) then (c.fields.lookup s).bind a else none

theorem str_lookup_fields (fs : List (String × String)) (hnd : (fs.map (·.1)).Nodup)
    (f : String × String) (hf : f ∈ fs) : List.lookup f.1 fs = some f.2 := by
  induction fs with
  | nil => simp at hf
  | cons f' fs ih =>
    obtain ⟨k', v'⟩ := f'
    simp only [List.map_cons, List.nodup_cons] at hnd
    simp only [List.lookup_cons]
    rcases List.mem_cons.mp hf with rfl | hf
    · simp
    · have : f.1 ≠ k' := by
        intro e; apply hnd.1; rw [← e]; exact List.mem_map.mpr ⟨f, hf, rfl⟩
      simp only [beq_eq_false_iff_ne.mpr this]
      exact ih hnd.2 hf

theorem paramsOf_field {c : Cls} (hc : c.Lawful) (a : Attrs) {f : String × String}
    (hf : f ∈ c.fields) (hs : f.1 ∈ c.sig.map (·.1)) : c.paramsOf a f.1 = a f.2 := by
  unfold Cls.paramsOf
  rw [if_pos hs, str_lookup_fields _ hc.fnodup f hf]
  rfl

theorem paramsOf_isArgs {c : Cls} (hc : c.Lawful) {a : Attrs} (h : c.Readable a) :
    IsArgs c.sig (c.paramsOf a) := by
  intro s
  by_cases hs : s ∈ c.sig.map (·.1)
  · obtain ⟨f, hf, rfl⟩ := List.mem_map.mp (hc.infields s hs)
    rw [paramsOf_field hc a hf hs]
    exact ⟨fun _ => hs, fun _ => h f hf⟩
  · simp [Cls.paramsOf, hs]

theorem State.readable {c : Cls} (hc : c.Lawful) {p a : Attrs} (h : c.State p a) :
    c.Readable a := by
  obtain ⟨hp, a₀, h0⟩ := h
  exact fun f hf => exec_defs p c.body [] a₀ a (by simp) h0 _ (hc.indefs f hf)

theorem State.paramsOf {c : Cls} (hc : c.Lawful) {p a : Attrs} (h : c.State p a) :
    c.paramsOf a = p := by
  funext s
  by_cases hs : s ∈ c.sig.map (·.1)
  · obtain ⟨f, hf, rfl⟩ := List.mem_map.mp (hc.infields s hs)
    rw [paramsOf_field hc a hf hs]
    exact (State.getParams hc h).2 f hf (hc.notdrop _ hs)
  · have : ¬ (p s).isSome := fun h' => hs ((h.1 s).mp h')
    rw [Option.not_isSome_iff_eq_none] at this
    rw [this, Cls.paramsOf, if_neg hs]

theorem getParams_dict {c : Cls} (hc : c.Lawful) {a : Attrs} (h : c.Readable a) :
    ∃ d : Dict, c.getParams a = .ok d ∧ d.map (·.1) = c.fields.map (·.1) ∧
      ∀ s ∈ c.sig.map (·.1), d.lookup s = c.paramsOf a s := by
  refine ⟨_, getParams_eq c a h, by simp [List.map_map, Function.comp_def], fun s hs => ?_⟩
  obtain ⟨f, hf, rfl⟩ := List.mem_map.mp (hc.infields s hs)
  rw [lookup_fields c.fields hc.fnodup (fun x => (a x).getD .none) f hf, paramsOf_field hc a hf hs]
  have := h f hf
  cases hps : a f.2 with
  | none => rw [hps] at this; simp at this
  | some v => simp

theorem IsArgs.update {sig : List (String × Option Val)} {p : Attrs} (h : IsArgs sig p) {x : String}
    (hx : x ∈ sig.map (·.1)) (v : Val) : IsArgs sig (Function.update p x (some v)) := by
  intro s
  by_cases e : s = x
  · subst e; simp only [Function.update_self, Option.isSome_some, true_iff]; exact hx
  · rw [Function.update_of_ne e]; exact h s

/-- The effect of one `set_param`: known parameter → `__init__` with that parameter replaced. -/
theorem setParam_known {c : Cls} (hc : c.Lawful) {a : Attrs} (h : c.Readable a) {x : String}
    (hx : x ∈ c.sig.map (·.1)) (v : Val) :
    c.setParam x v a = exec (Function.update (c.paramsOf a) x (some v)) c.body a := by
  obtain ⟨d, hd, hk, hl⟩ := getParams_dict hc h
  unfold Cls.setParam Cls.init
  rw [hd]
  simp only
  rw [bindArgs_of_lookup ((paramsOf_isArgs hc h).update hx v)]
  · intro k hk'
    rw [keys_drops, keys_insert, hk] at hk'
    rcases hk'.2 with rfl | h'
    · exact hx
    · obtain ⟨f, hf, rfl⟩ := List.mem_map.mp h'
      exact hc.inSig f hf hk'.1
  · intro s hs
    rw [lookup_drops, if_neg (hc.notdrop s hs), lookup_insert]
    by_cases e : s = x
    · subst e; simp
    · rw [if_neg e, Function.update_of_ne e, hl s hs]

/-- A deleted key (Black76's `b`): the value is ignored and `__init__` re-run unchanged. -/
theorem setParam_drop {c : Cls} (hc : c.Lawful) {a : Attrs} (h : c.Readable a) {x : String}
    (hx : x ∈ c.drop) (v : Val) : c.setParam x v a = exec (c.paramsOf a) c.body a := by
  obtain ⟨d, hd, hk, hl⟩ := getParams_dict hc h
  unfold Cls.setParam Cls.init
  rw [hd]
  simp only
  rw [bindArgs_of_lookup (paramsOf_isArgs hc h)]
  · intro k hk'
    rw [keys_drops, keys_insert, hk] at hk'
    rcases hk'.2 with rfl | h'
    · exact absurd hx hk'.1
    · obtain ⟨f, hf, rfl⟩ := List.mem_map.mp h'
      exact hc.inSig f hf hk'.1
  · intro s hs
    rw [lookup_drops, if_neg (hc.notdrop s hs), lookup_insert, if_neg, hl s hs]
    rintro rfl
    exact hc.notdrop _ hs hx

/-- Any other name: `TypeError`, object unchanged. -/
theorem setParam_unknown {c : Cls} (hc : c.Lawful) {a : Attrs} (h : c.Readable a) {x : String}
    (hx : x ∉ c.sig.map (·.1)) (hx' : x ∉ c.drop) (v : Val) :
    c.setParam x v a = (a, some .typeError) := by
  obtain ⟨d, hd, hk, hl⟩ := getParams_dict hc h
  unfold Cls.setParam Cls.init
  rw [hd]
  simp only
  rw [bindArgs_unknown (x := x) _ hx]
  rw [keys_drops, keys_insert]
  exact ⟨hx', Or.inl rfl⟩

/-- Running a body never removes an attribute, whether or not it raises. -/
theorem exec_mono (args : Attrs) (l : List Stmt) : ∀ (a : Attrs) (x : String), (a x).isSome →
    ((exec args l a).1 x).isSome := by
  have hset : ∀ (a : Attrs) (x y : String) (v : Val), (a y).isSome → ((a.set x v) y).isSome := by
    intro a x y v h
    by_cases e : y = x <;> simp [Attrs.set, e, h]
  induction l with
  | nil => intro a x h; exact h
  | cons s l ih =>
    intro a x h
    cases s with
    | assign y e =>
      simp only [exec]
      split
      · exact ih _ _ (hset _ _ _ _ h)
      · exact h
    | assignIf p y e =>
      simp only [exec]
      split
      · exact ih _ _ h
      · split
        · exact ih _ _ (hset _ _ _ _ h)
        · exact h
    | noArrays ps =>
      simp only [exec]
      split
      · exact h
      · exact ih _ _ h

/-- The parameters a `set_param` call runs the constructor with. -/
def Cls.newParams (c : Cls) (x : String) (v : Val) (p : Attrs) : Attrs :=
  if x ∈ c.sig.map (·.1) then Function.update p x (some v) else p

theorem setParam_cases {c : Cls} (hc : c.Lawful) {a : Attrs} (h : c.Readable a) (x : String)
    (v : Val) : c.setParam x v a = (a, some .typeError) ∨
      (IsArgs c.sig (c.newParams x v (c.paramsOf a)) ∧
        c.setParam x v a = exec (c.newParams x v (c.paramsOf a)) c.body a) := by
  unfold Cls.newParams
  by_cases hx : x ∈ c.sig.map (·.1)
  · rw [if_pos hx]
    exact Or.inr ⟨(paramsOf_isArgs hc h).update hx v, setParam_known hc h hx v⟩
  · rw [if_neg hx]
    by_cases hd : x ∈ c.drop
    · exact Or.inr ⟨paramsOf_isArgs hc h, setParam_drop hc h hd v⟩
    · exact Or.inl (setParam_unknown hc h hx hd v)

theorem setParam_readable {c : Cls} (hc : c.Lawful) {a : Attrs} (h : c.Readable a) (x : String)
    (v : Val) : c.Readable (c.setParam x v a).1 := by
  rcases setParam_cases hc h x v with e | ⟨_, e⟩
  · rw [e]; exact h
  · rw [e]; exact fun f hf => exec_mono _ _ _ _ (h f hf)

/-- A `set_param` that returns normally leaves the object in the state of its new parameters, even if
earlier failed calls had left it incoherent. -/
theorem setParam_state {c : Cls} (hc : c.Lawful) {a a' : Attrs} (h : c.Readable a) {x : String}
    {v : Val} (he : c.setParam x v a = (a', none)) :
    c.State (c.newParams x v (c.paramsOf a)) a' := by
  rcases setParam_cases hc h x v with e | ⟨hp, e⟩
  · rw [e] at he; simp at he
  · rw [e] at he; exact ⟨hp, a, he⟩

theorem construct_state {c : Cls} (hc : c.Lawful) {kw : Dict} {a : Attrs}
    (h : c.construct kw = (a, none)) : ∃ p, bindArgs c.sig kw = .ok p ∧ c.State p a := by
  unfold Cls.construct Cls.init at h
  split at h
  · simp at h
  · rename_i p hp
    exact ⟨p, hp, bindArgs_isArgs hc.nodup hp, _, h⟩

/-- Two objects in the same parameter state agree on every attribute assigned by the constructor. -/
theorem State.agree {c : Cls} (hc : c.Lawful) {p a₁ a₂ : Attrs} (h₁ : c.State p a₁)
    (h₂ : c.State p a₂) : Agree p (defs c.body []) (gdefs c.body []) a₁ a₂ := by
  obtain ⟨_, b₁, e₁⟩ := h₁
  obtain ⟨_, b₂, e₂⟩ := h₂
  have := (exec_agree p c.body [] [] b₁ b₂ hc.wf ⟨by simp, by simp⟩).2
  rw [e₁, e₂] at this
  exact this rfl

/-- Whether `__init__` raises, and what, depends only on the arguments. -/
theorem State.error_indep {c : Cls} (hc : c.Lawful) (p a₁ a₂ : Attrs) :
    (exec p c.body a₁).2 = (exec p c.body a₂).2 :=
  (exec_agree p c.body [] [] a₁ a₂ hc.wf ⟨by simp, by simp⟩).1

end Verif
