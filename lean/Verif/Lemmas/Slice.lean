import Verif.Lemmas.ExprEval
import Verif.Lemmas.ObjState

/-!
Broadcasting commutes with taking one element: running constructors and methods on arrays and then
taking element `i` is the same as running them on the elements `i`.
-/
namespace Verif

/-- The scalar argument at index `i`: arrays are replaced by their element. -/
def Val.slice (i : ℕ) : Val → Val
  | .num x => .num x
  | .arr xs => .num ((Val.arr xs).get i)
  | .none => .none
  | .str s => .str s

/-- Element `i` of every attribute or argument. -/
def Attrs.slice (i : ℕ) (a : Attrs) : Attrs := fun x => (a x).map (Val.slice i)

/-- Arrays have length `n` (or one). -/
def Val.Len (n : ℕ) : Val → Prop
  | .arr xs => xs.length = n ∨ xs.length = 1
  | _ => True

theorem Val.Shaped.len {n : ℕ} {v : Val} (h : v.Shaped n) : v.Len n := by
  cases v <;> simp_all [Val.Shaped, Val.Len]

theorem Val.Shaped.slice {n i : ℕ} {v : Val} (h : v.Shaped n) : v.slice i = .num (v.get i) := by
  cases v <;> simp_all [Val.Shaped, Val.slice, Val.get]

theorem map_shaped {f : ℝ → ℝ} {v w : Val} {n : ℕ} (hv : v.Len n) (h : v.map f = .ok w) :
    v.Shaped n := by
  cases v <;> simp_all [Val.map, Val.Shaped, Val.Len]

theorem map₂_shaped {f : ℝ → ℝ → ℝ} {v₁ v₂ w : Val} {n : ℕ} (h₁ : v₁.Len n) (h₂ : v₂.Len n)
    (h : Val.map₂ f v₁ v₂ = .ok w) : v₁.Shaped n ∧ v₂.Shaped n := by
  cases v₁ <;> cases v₂ <;> simp_all [Val.map₂, Val.Shaped, Val.Len]

theorem pdiv_map₂ {v₁ v₂ w : Val} (h : Val.pdiv v₁ v₂ = .ok w) :
    Val.map₂ (· / ·) v₁ v₂ = .ok w := by
  cases v₁ <;> cases v₂ <;> try exact h
  simp only [Val.pdiv] at h
  split at h
  · cases h
  · exact h

theorem attrs_at_slice (i : ℕ) (a : Attrs) (n : ℕ) (x : String) {v : Val} (hv : a x = some v)
    (hs : v.Shaped n) : a.slice i x = some (.num (v.get i)) := by
  simp [Attrs.slice, hv, hs.slice]

/-- Evaluation and slicing commute. -/
theorem eval_slice (args a : Attrs) (n i : ℕ) (hi : i < n)
    (hargs : ∀ x v, args x = some v → v.Len n) (ha : ∀ x v, a x = some v → v.Len n) (e : Expr) :
    ∀ v w, e.eval args a = .ok v → e.eval (args.slice i) (a.slice i) = .ok w →
      v.Len n ∧ w = v.slice i := by
  induction e with
  | arg x =>
    intro v w h h'
    simp only [Expr.eval, Attrs.slice] at h h'
    cases hx : args x with
    | none => rw [hx] at h; cases h
    | some u =>
      rw [hx] at h h'
      simp only [Option.map_some, Except.ok.injEq] at h h'
      subst h h'
      exact ⟨hargs x _ hx, rfl⟩
  | attr x =>
    intro v w h h'
    simp only [Expr.eval, Attrs.slice] at h h'
    cases hx : a x with
    | none => rw [hx] at h; cases h
    | some u =>
      rw [hx] at h h'
      simp only [Option.map_some, Except.ok.injEq] at h h'
      subst h h'
      exact ⟨ha x _ hx, rfl⟩
  | lit x =>
    intro v w h h'
    simp only [Expr.eval, Except.ok.injEq] at h h'
    subst h h'
    exact ⟨trivial, rfl⟩
  | noneLit =>
    intro v w h h'
    simp only [Expr.eval, Except.ok.injEq] at h h'
    subst h h'
    exact ⟨trivial, rfl⟩
  | un f e ih =>
    intro v w h h'
    obtain ⟨u, hu, h⟩ := bind_ok h
    obtain ⟨u', hu', h'⟩ := bind_ok h'
    obtain ⟨l, rfl⟩ := ih u u' hu hu'
    have hs := map_shaped l h
    obtain ⟨s, g⟩ := map_elem hs h
    rw [hs.slice] at h'
    simp only [Val.map, Except.ok.injEq] at h'
    subst h'
    exact ⟨s.len, by rw [s.slice, g i hi]⟩
  | bin f e₁ e₂ ih₁ ih₂ =>
    intro v w h h'
    obtain ⟨u₁, hu₁, h⟩ := bind_ok h
    obtain ⟨u₂, hu₂, h⟩ := bind_ok h
    obtain ⟨u₁', hu₁', h'⟩ := bind_ok h'
    obtain ⟨u₂', hu₂', h'⟩ := bind_ok h'
    obtain ⟨l₁, rfl⟩ := ih₁ u₁ u₁' hu₁ hu₁'
    obtain ⟨l₂, rfl⟩ := ih₂ u₂ u₂' hu₂ hu₂'
    obtain ⟨s₁, s₂⟩ := map₂_shaped l₁ l₂ h
    obtain ⟨s, g⟩ := map₂_elem s₁ s₂ h
    rw [s₁.slice, s₂.slice] at h'
    simp only [Val.map₂, Except.ok.injEq] at h'
    subst h'
    exact ⟨s.len, by rw [s.slice, g i hi]⟩
  | pdiv e₁ e₂ ih₁ ih₂ =>
    intro v w h h'
    obtain ⟨u₁, hu₁, h⟩ := bind_ok h
    obtain ⟨u₂, hu₂, h⟩ := bind_ok h
    obtain ⟨u₁', hu₁', h'⟩ := bind_ok h'
    obtain ⟨u₂', hu₂', h'⟩ := bind_ok h'
    obtain ⟨l₁, rfl⟩ := ih₁ u₁ u₁' hu₁ hu₁'
    obtain ⟨l₂, rfl⟩ := ih₂ u₂ u₂' hu₂ hu₂'
    replace h := pdiv_map₂ h
    replace h' := pdiv_map₂ h'
    obtain ⟨s₁, s₂⟩ := map₂_shaped l₁ l₂ h
    obtain ⟨s, g⟩ := map₂_elem s₁ s₂ h
    rw [s₁.slice, s₂.slice] at h'
    simp only [Val.map₂, Except.ok.injEq] at h'
    subst h'
    exact ⟨s.len, by rw [s.slice, g i hi]⟩
  | ite c e₁ e₂ ihc ih₁ ih₂ =>
    intro v w h h'
    obtain ⟨u, hu, h⟩ := bind_ok h
    obtain ⟨b, hb, h⟩ := bind_ok h
    obtain ⟨u', hu', h'⟩ := bind_ok h'
    obtain ⟨b', hb', h'⟩ := bind_ok h'
    obtain ⟨lc, rfl⟩ := ihc u u' hu hu'
    have hbb : b = b' := by
      cases u with
      | none => rw [show Val.none.nonzero = .ok true from rfl] at hb
                rw [show (Val.none.slice i).nonzero = .ok true from rfl] at hb'
                injection hb with hb; injection hb' with hb'; rw [← hb, ← hb']
      | str s => rw [show (Val.str s).nonzero = .ok true from rfl] at hb
                 rw [show ((Val.str s).slice i).nonzero = .ok true from rfl] at hb'
                 injection hb with hb; injection hb' with hb'; rw [← hb, ← hb']
      | num x => simp only [Val.slice] at hb'; rw [hb] at hb'; injection hb'
      | arr xs =>
        match xs with
        | [] => simp [Val.nonzero] at hb
        | [x] =>
          simp only [Val.nonzero, Except.ok.injEq, Val.slice, Val.get] at hb hb'
          rw [← hb, ← hb']
        | x :: y :: xs => simp [Val.nonzero] at hb
    subst hbb
    cases b with
    | true => exact ih₁ v w (by simpa using h) (by simpa using h')
    | false => exact ih₂ v w (by simpa using h) (by simpa using h')

theorem slice_set (i : ℕ) (a : Attrs) (x : String) (v : Val) :
    (a.set x v).slice i = (a.slice i).set x (v.slice i) := by
  funext y
  by_cases h : y = x <;> simp [Attrs.slice, Attrs.set, Function.update, h]

theorem isNoneArg_slice (i : ℕ) (a : Attrs) (x : String) :
    isNoneArg (a.slice i) x = isNoneArg a x := by
  unfold isNoneArg Attrs.slice
  cases a x with
  | none => rfl
  | some v => cases v <;> rfl

theorem len_set {n : ℕ} {a : Attrs} (ha : ∀ x v, a x = some v → v.Len n) {x : String} {w : Val}
    (hw : w.Len n) : ∀ y v, a.set x w y = some v → v.Len n := by
  intro y v h
  by_cases e : y = x
  · subst e; simp only [Attrs.set, Function.update_self, Option.some.injEq] at h; subst h; exact hw
  · rw [Attrs.set, Function.update_of_ne e] at h; exact ha y v h

/-- Constructor bodies and slicing commute. -/
theorem exec_slice (args : Attrs) (n i : ℕ) (hi : i < n)
    (hargs : ∀ x v, args x = some v → v.Len n) (l : List Stmt) : ∀ (a a' b : Attrs),
    (∀ x v, a x = some v → v.Len n) → exec args l a = (a', none) →
    exec (args.slice i) l (a.slice i) = (b, none) →
    b = a'.slice i ∧ ∀ x v, a' x = some v → v.Len n := by
  induction l with
  | nil =>
    intro a a' b ha h h'
    simp only [exec, Prod.mk.injEq, and_true] at h h'
    subst h h'
    exact ⟨rfl, ha⟩
  | cons s l ih =>
    intro a a' b ha h h'
    cases s with
    | assign x e =>
      simp only [exec] at h h'
      split at h
      · rename_i v hv
        split at h'
        · rename_i w hw
          obtain ⟨lv, rfl⟩ := eval_slice args a n i hi hargs ha e v w hv hw
          rw [← slice_set] at h'
          exact ih _ _ _ (len_set ha lv) h h'
        · simp at h'
      · simp at h
    | assignIf p x e =>
      simp only [exec, isNoneArg_slice] at h h'
      split at h
      · rename_i hp
        rw [if_pos hp] at h'
        exact ih _ _ _ ha h h'
      · rename_i hp
        rw [if_neg hp] at h'
        split at h
        · rename_i v hv
          split at h'
          · rename_i w hw
            obtain ⟨lv, rfl⟩ := eval_slice args a n i hi hargs ha e v w hv hw
            rw [← slice_set] at h'
            exact ih _ _ _ (len_set ha lv) h h'
          · simp at h'
        · simp at h
    | noArrays ps =>
      simp only [exec] at h h'
      split at h
      · simp at h
      · split at h'
        · simp at h'
        · exact ih _ _ _ ha h h'

/-- Methods and slicing commute. -/
theorem run_slice (m : Meth) (a : Attrs) (n i : ℕ) (hi : i < n)
    (ha : ∀ x v, a x = some v → v.Len n) {v w : Val} (h : m.run a = .ok v)
    (h' : m.run (a.slice i) = .ok w) : w = v.slice i := by
  unfold Meth.run at h h'
  have : m.needs.any (isNoneArg (a.slice i)) = m.needs.any (isNoneArg a) := by
    congr 1
    funext x
    exact isNoneArg_slice i a x
  rw [this] at h'
  split at h
  · cases h
  · rename_i hn
    rw [if_neg hn] at h'
    have he : Attrs.empty = Attrs.slice i Attrs.empty := rfl
    rw [he] at h'
    exact (eval_slice Attrs.empty a n i hi (by intro x v h; cases h) ha m.body v w h h').2

/-! ### Arrays do not raise where scalars do not -/

/-- No conditional expression occurs. -/
def Expr.noIte : Expr → Bool
  | .arg _ => true
  | .attr _ => true
  | .lit _ => true
  | .noneLit => true
  | .un _ e => e.noIte
  | .bin _ e₁ e₂ => e₁.noIte && e₂.noIte
  | .pdiv e₁ e₂ => e₁.noIte && e₂.noIte
  | .ite _ _ _ => false

theorem shaped_of_slice {n i : ℕ} {v : Val} {x : ℝ} (hl : v.Len n) (h : v.slice i = .num x) :
    v.Shaped n := by
  cases v <;> simp_all [Val.slice, Val.Shaped, Val.Len]

theorem map_num {f : ℝ → ℝ} {v w : Val} (h : (v.slice 0).map f = .ok w) : ∃ x, v.slice 0 = .num x := by
  cases v <;> simp_all [Val.slice, Val.map]

theorem map₂_num {f : ℝ → ℝ → ℝ} {v₁ v₂ w : Val} (h : Val.map₂ f (v₁.slice 0) (v₂.slice 0) = .ok w) :
    (∃ x, v₁.slice 0 = .num x) ∧ ∃ y, v₂.slice 0 = .num y := by
  cases v₁ <;> cases v₂ <;> simp_all [Val.slice, Val.map₂]

/-- If an unconditional expression evaluates on the elements at index 0, it evaluates on the arrays. -/
theorem eval_ok_of_slice (args a : Attrs) (n : ℕ) (hn : 0 < n)
    (hargs : ∀ x v, args x = some v → v.Len n) (ha : ∀ x v, a x = some v → v.Len n) (e : Expr) :
    e.noIte = true → ∀ w, e.eval (args.slice 0) (a.slice 0) = .ok w → ∃ v, e.eval args a = .ok v := by
  induction e with
  | arg x =>
    intro _ w h
    simp only [Expr.eval, Attrs.slice] at h ⊢
    cases hx : args x with
    | none => rw [hx] at h; cases h
    | some u => exact ⟨u, rfl⟩
  | attr x =>
    intro _ w h
    simp only [Expr.eval, Attrs.slice] at h ⊢
    cases hx : a x with
    | none => rw [hx] at h; cases h
    | some u => exact ⟨u, rfl⟩
  | lit x => intro _ w _; exact ⟨_, rfl⟩
  | noneLit => intro _ w _; exact ⟨_, rfl⟩
  | un f e ih =>
    intro hno w h
    obtain ⟨u', hu', h⟩ := bind_ok h
    obtain ⟨u, hu⟩ := ih hno u' hu'
    obtain ⟨l, rfl⟩ := eval_slice args a n 0 hn hargs ha e u u' hu hu'
    obtain ⟨x, hx⟩ := map_num h
    have hs := shaped_of_slice l hx
    cases u <;> simp only [Val.Shaped] at hs
    · exact ⟨_, by simp only [Expr.eval, hu]; rfl⟩
    · exact ⟨_, by simp only [Expr.eval, hu]; rfl⟩
  | bin f e₁ e₂ ih₁ ih₂ =>
    intro hno w h
    simp only [Expr.noIte, Bool.and_eq_true] at hno
    obtain ⟨u₁', hu₁', h⟩ := bind_ok h
    obtain ⟨u₂', hu₂', h⟩ := bind_ok h
    obtain ⟨u₁, hu₁⟩ := ih₁ hno.1 u₁' hu₁'
    obtain ⟨u₂, hu₂⟩ := ih₂ hno.2 u₂' hu₂'
    obtain ⟨l₁, rfl⟩ := eval_slice args a n 0 hn hargs ha e₁ u₁ u₁' hu₁ hu₁'
    obtain ⟨l₂, rfl⟩ := eval_slice args a n 0 hn hargs ha e₂ u₂ u₂' hu₂ hu₂'
    obtain ⟨⟨x, hx⟩, y, hy⟩ := map₂_num h
    obtain ⟨v, hv⟩ := map₂_ok f (shaped_of_slice l₁ hx) (shaped_of_slice l₂ hy)
    exact ⟨v, by simp only [Expr.eval, hu₁, hu₂]; exact hv⟩
  | pdiv e₁ e₂ ih₁ ih₂ =>
    intro hno w h
    simp only [Expr.noIte, Bool.and_eq_true] at hno
    obtain ⟨u₁', hu₁', h⟩ := bind_ok h
    obtain ⟨u₂', hu₂', h⟩ := bind_ok h
    obtain ⟨u₁, hu₁⟩ := ih₁ hno.1 u₁' hu₁'
    obtain ⟨u₂, hu₂⟩ := ih₂ hno.2 u₂' hu₂'
    obtain ⟨l₁, rfl⟩ := eval_slice args a n 0 hn hargs ha e₁ u₁ u₁' hu₁ hu₁'
    obtain ⟨l₂, rfl⟩ := eval_slice args a n 0 hn hargs ha e₂ u₂ u₂' hu₂ hu₂'
    obtain ⟨⟨x, hx⟩, y, hy⟩ := map₂_num (pdiv_map₂ h)
    have s₁ := shaped_of_slice l₁ hx
    have s₂ := shaped_of_slice l₂ hy
    obtain ⟨v, hv⟩ := map₂_ok (· / ·) s₁ s₂
    simp only [Expr.eval, hu₁, hu₂]
    cases u₁ <;> cases u₂ <;> simp only [Val.Shaped] at s₁ s₂ <;> try exact ⟨v, hv⟩
    exact ⟨w, h⟩
  | ite c e₁ e₂ _ _ _ => intro hno; simp [Expr.noIte] at hno

/-- No conditional expression and no rejection of arrays in a body. -/
def arrayBody (l : List Stmt) : Bool := l.all (fun s => match s with
  | .assign _ e => e.noIte
  | .assignIf _ _ e => e.noIte
  | .noArrays _ => false)

/-- If such a body runs without exception on the elements at index 0, it does so on the arrays. -/
theorem exec_ok_of_slice (args : Attrs) (n : ℕ) (hn : 0 < n)
    (hargs : ∀ x v, args x = some v → v.Len n) (l : List Stmt) : ∀ (a b : Attrs),
    arrayBody l = true → (∀ x v, a x = some v → v.Len n) →
    exec (args.slice 0) l (a.slice 0) = (b, none) → ∃ a', exec args l a = (a', none) := by
  induction l with
  | nil => intro a b _ _ _; exact ⟨a, rfl⟩
  | cons s l ih =>
    intro a b hw ha h
    simp only [arrayBody, List.all_cons, Bool.and_eq_true] at hw
    cases s with
    | assign x e =>
      simp only [exec] at h ⊢
      split at h
      · rename_i w hw'
        obtain ⟨v, hv⟩ := eval_ok_of_slice args a n hn hargs ha e hw.1 w hw'
        obtain ⟨lv, rfl⟩ := eval_slice args a n 0 hn hargs ha e v w hv hw'
        rw [← slice_set] at h
        rw [hv]
        exact ih _ _ hw.2 (len_set ha lv) h
      · simp at h
    | assignIf p x e =>
      simp only [exec, isNoneArg_slice] at h ⊢
      split at h
      · rename_i hp
        rw [if_pos hp]
        exact ih _ _ hw.2 ha h
      · rename_i hp
        rw [if_neg hp]
        split at h
        · rename_i w hw'
          obtain ⟨v, hv⟩ := eval_ok_of_slice args a n hn hargs ha e hw.1 w hw'
          obtain ⟨lv, rfl⟩ := eval_slice args a n 0 hn hargs ha e v w hv hw'
          rw [← slice_set] at h
          rw [hv]
          exact ih _ _ hw.2 (len_set ha lv) h
        · simp at h
    | noArrays ps => simp at hw

/-! ### Keyword arguments -/

/-- The keyword arguments at index `i`. -/
def Dict.slice (i : ℕ) (d : Dict) : Dict := d.map (fun kv => (kv.1, kv.2.slice i))

theorem lookup_slice (i : ℕ) (d : Dict) (x : String) :
    List.lookup x (Dict.slice i d) = (List.lookup x d).map (Val.slice i) := by
  induction d with
  | nil => rfl
  | cons kv d ih =>
    obtain ⟨k, v⟩ := kv
    simp only [Dict.slice, List.map_cons, List.lookup_cons]
    by_cases h : x = k
    · subst h; simp
    · simp only [beq_eq_false_iff_ne.mpr h]; exact ih

/-- Defaults are not arrays. -/
def Cls.plainDefaults (c : Cls) : Bool := c.sig.all (fun q => match q.2 with
  | some (.arr _) => false
  | _ => true)

theorem bindArgs_slice {c : Cls} (hc : c.Lawful) (hd : c.plainDefaults = true) (i : ℕ) {kw : Dict}
    {p : Attrs} (h : bindArgs c.sig kw = .ok p) :
    bindArgs c.sig (Dict.slice i kw) = .ok (p.slice i) := by
  obtain ⟨hk, hp, hreq⟩ := bindArgs_ok h
  unfold bindArgs
  rw [if_neg, if_neg]
  · congr 1
    funext s
    rw [lookup_slice]
    simp only [Attrs.slice, hp]
    cases hl : List.lookup s c.sig with
    | none => rfl
    | some d =>
      simp only
      cases hlk : List.lookup s kw with
      | some v => rfl
      | none =>
        have hm := lookup_mem hc.nodup hl
        simp only [Cls.plainDefaults, List.all_eq_true] at hd
        have := hd _ hm
        simp only at this
        cases d with
        | none => rfl
        | some v => cases v <;> first | rfl | simp at this
  · rw [List.any_eq_true]
    rintro ⟨q, hq, h'⟩
    rw [lookup_slice] at h'
    rw [Bool.and_eq_true, Option.isNone_iff_eq_none, Option.isNone_iff_eq_none,
      Option.map_eq_none_iff] at h'
    rcases hreq q hq with h1 | h1
    · rw [h'.1] at h1; simp at h1
    · rw [h'.2] at h1; simp at h1
  · rw [List.any_eq_true]
    rintro ⟨q, hq, h'⟩
    obtain ⟨kv, hkv, rfl⟩ := List.mem_map.mp hq
    have h3 := hk kv.1 (List.mem_map.mpr ⟨kv, hkv, rfl⟩)
    have := List.contains_iff_mem.mpr h3
    simp only at h'
    rw [this] at h'
    simp at h'

theorem bindArgs_len {c : Cls} (hc : c.Lawful) (hd : c.plainDefaults = true) {n : ℕ} {kw : Dict}
    {p : Attrs} (hkw : ∀ kv ∈ kw, kv.2.Len n) (h : bindArgs c.sig kw = .ok p) :
    ∀ x v, p x = some v → v.Len n := by
  obtain ⟨-, hp, -⟩ := bindArgs_ok h
  intro x v hv
  rw [hp] at hv
  simp only at hv
  cases hl : List.lookup x c.sig with
  | none => rw [hl] at hv; simp at hv
  | some d =>
    rw [hl] at hv
    simp only at hv
    cases hlk : List.lookup x kw with
    | some u =>
      rw [hlk] at hv
      simp only [Option.orElse_some, Option.some.injEq] at hv
      subst hv
      have : (x, u) ∈ kw := by
        clear h hp hkw
        induction kw with
        | nil => simp at hlk
        | cons kv kw ih =>
          obtain ⟨k, w⟩ := kv
          simp only [List.lookup_cons] at hlk
          by_cases e : x = k
          · subst e; simp only [beq_self_eq_true, Option.some.injEq] at hlk; subst hlk; simp
          · simp only [beq_eq_false_iff_ne.mpr e] at hlk
            exact List.mem_cons_of_mem _ (ih hlk)
      exact hkw _ this
    | none =>
      rw [hlk] at hv
      simp only [Option.orElse_none] at hv
      subst hv
      have hm := lookup_mem hc.nodup hl
      simp only [Cls.plainDefaults, List.all_eq_true] at hd
      have := hd _ hm
      cases v <;> simp_all [Val.Len]

end Verif
