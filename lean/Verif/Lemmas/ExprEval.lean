import Verif.Model.Expr

/-!
Scalar and elementwise meaning of expressions: `Expr.evalR` is the real-number formula, `Val.get i` the
`i`-th element a broadcast value stands for.  The theorems relate `Expr.eval` (with exceptions and
broadcasting) to them.
-/
namespace Verif

/-- The element of a value at index `i` under broadcasting. -/
def Val.get (i : ℕ) : Val → ℝ
  | .num x => x
  | .arr [x] => x
  | .arr xs => xs.getD i 0
  | .none => 0
  | .str _ => 0

/-- A number, or an array of length `n` (or one). -/
def Val.Shaped (n : ℕ) : Val → Prop
  | .num _ => True
  | .arr xs => xs.length = n ∨ xs.length = 1
  | .none => False
  | .str _ => False

open Classical in
/-- The formula an expression denotes over real numbers. -/
noncomputable def Expr.evalR (args ρ : String → ℝ) : Expr → ℝ
  | .arg x => args x
  | .attr x => ρ x
  | .lit x => x
  | .noneLit => 0
  | .un f e => f (e.evalR args ρ)
  | .bin f e₁ e₂ => f (e₁.evalR args ρ) (e₂.evalR args ρ)
  | .pdiv e₁ e₂ => e₁.evalR args ρ / e₂.evalR args ρ
  | .ite c e₁ e₂ => if c.evalR args ρ ≠ 0 then e₁.evalR args ρ else e₂.evalR args ρ

section simps
variable (args ρ : String → ℝ) (e e₁ e₂ : Expr)
@[simp] theorem evalR_add : (e₁ + e₂).evalR args ρ = e₁.evalR args ρ + e₂.evalR args ρ := rfl
@[simp] theorem evalR_sub : (e₁ - e₂).evalR args ρ = e₁.evalR args ρ - e₂.evalR args ρ := rfl
@[simp] theorem evalR_mul : (e₁ * e₂).evalR args ρ = e₁.evalR args ρ * e₂.evalR args ρ := rfl
@[simp] theorem evalR_div : (e₁ / e₂).evalR args ρ = e₁.evalR args ρ / e₂.evalR args ρ := rfl
@[simp] theorem evalR_neg : (-e).evalR args ρ = -(e.evalR args ρ) := rfl
@[simp] theorem evalR_exp : (Expr.exp e).evalR args ρ = Real.exp (e.evalR args ρ) := rfl
@[simp] theorem evalR_log : (Expr.log e).evalR args ρ = Real.log (e.evalR args ρ) := rfl
@[simp] theorem evalR_sqrt : (Expr.sqrt e).evalR args ρ = √(e.evalR args ρ) := rfl
@[simp] theorem evalR_sq : (Expr.sq e).evalR args ρ = e.evalR args ρ ^ 2 := rfl
@[simp] theorem evalR_cnd : (Expr.cnd e).evalR args ρ = CND (e.evalR args ρ) := rfl
@[simp] theorem evalR_ndf : (Expr.ndf e).evalR args ρ = NDF (e.evalR args ρ) := rfl
@[simp] theorem evalR_pdiv : (Expr.pdiv e₁ e₂).evalR args ρ = e₁.evalR args ρ / e₂.evalR args ρ := rfl
@[simp] theorem evalR_attr (x : String) : (Expr.attr x).evalR args ρ = ρ x := rfl
@[simp] theorem evalR_arg (x : String) : (Expr.arg x).evalR args ρ = args x := rfl
@[simp] theorem evalR_lit (x : ℝ) : (Expr.lit x).evalR args ρ = x := rfl
@[simp] theorem evalR_ofNat (n : ℕ) [n.AtLeastTwo] :
    (OfNat.ofNat n : Expr).evalR args ρ = OfNat.ofNat n := rfl
@[simp] theorem evalR_one : (1 : Expr).evalR args ρ = 1 := rfl
@[simp] theorem evalR_zero : (0 : Expr).evalR args ρ = 0 := rfl
end simps

theorem map_elem {f : ℝ → ℝ} {v w : Val} {n : ℕ} (hv : v.Shaped n) (h : v.map f = .ok w) :
    w.Shaped n ∧ ∀ i < n, w.get i = f (v.get i) := by
  cases v with
  | none => simp [Val.map] at h
  | str s => simp [Val.map] at h
  | num x => simp only [Val.map, Except.ok.injEq] at h; subst h; simp [Val.Shaped, Val.get]
  | arr xs =>
    simp only [Val.map, Except.ok.injEq] at h; subst h
    refine ⟨by simpa [Val.Shaped] using hv, fun i hi => ?_⟩
    match xs, hv with
    | [], hv => simp only [Val.Shaped, List.length_nil] at hv; omega
    | [x], _ => simp [Val.get]
    | x :: y :: xs, hv =>
      simp only [Val.Shaped, List.length_cons] at hv
      have hl : i < (x :: y :: xs).length := by simp only [List.length_cons]; omega
      simp only [List.map_cons, Val.get]
      rw [← List.map_cons, ← List.map_cons, List.getD_eq_getElem?_getD, List.getD_eq_getElem?_getD,
        List.getElem?_map, List.getElem?_eq_getElem hl]
      rfl

theorem getD_zipWith (f : ℝ → ℝ → ℝ) (xs ys : List ℝ) (i : ℕ) (h1 : i < xs.length)
    (h2 : i < ys.length) : (List.zipWith f xs ys).getD i 0 = f (xs.getD i 0) (ys.getD i 0) := by
  rw [List.getD_eq_getElem?_getD, List.getD_eq_getElem?_getD, List.getD_eq_getElem?_getD,
    List.getElem?_zipWith, List.getElem?_eq_getElem h1, List.getElem?_eq_getElem h2]
  rfl

theorem getD_map (f : ℝ → ℝ) (xs : List ℝ) (i : ℕ) (h : i < xs.length) :
    (xs.map f).getD i 0 = f (xs.getD i 0) := by
  rw [List.getD_eq_getElem?_getD, List.getD_eq_getElem?_getD, List.getElem?_map,
    List.getElem?_eq_getElem h]
  rfl

/-- For an array of length at least `n`, the element is the list element. -/
theorem get_arr {xs : List ℝ} {n i : ℕ} (hi : i < n) (h : xs.length = n) :
    (Val.arr xs).get i = xs.getD i 0 := by
  match xs, h with
  | [], _ => rfl
  | [x], h => simp only [List.length_singleton] at h; obtain rfl : i = 0 := by omega
              simp [Val.get]
  | x :: y :: xs, _ => rfl

theorem map₂_elem {f : ℝ → ℝ → ℝ} {v₁ v₂ w : Val} {n : ℕ} (h₁ : v₁.Shaped n) (h₂ : v₂.Shaped n)
    (h : Val.map₂ f v₁ v₂ = .ok w) :
    w.Shaped n ∧ ∀ i < n, w.get i = f (v₁.get i) (v₂.get i) := by
  cases v₁ with
  | none => simp [Val.Shaped] at h₁
  | str s => simp [Val.Shaped] at h₁
  | num x =>
    cases v₂ with
    | none => simp [Val.Shaped] at h₂
    | str s => simp [Val.Shaped] at h₂
    | num y => simp only [Val.map₂, Except.ok.injEq] at h; subst h; simp [Val.Shaped, Val.get]
    | arr ys => exact map_elem (f := f x) h₂ h
  | arr xs =>
    cases v₂ with
    | none => simp [Val.Shaped] at h₂
    | str s => simp [Val.Shaped] at h₂
    | num y => exact map_elem (f := (f · y)) h₁ h
    | arr ys =>
      simp only [Val.map₂, broadcast] at h
      split at h
      · rename_i hl
        injection h with h; subst h
        refine ⟨by simp only [Val.Shaped, List.length_zipWith] at h₁ ⊢; omega, fun i hi => ?_⟩
        rcases (show xs.length = n ∨ xs.length = 1 from h₁) with hx | hx
        · rw [get_arr hi (by simp [hx, ← hl]), get_arr hi hx, get_arr hi (hl ▸ hx),
            getD_zipWith f xs ys i (by omega) (by omega)]
        · obtain ⟨x, rfl⟩ := List.length_eq_one_iff.mp hx
          obtain ⟨y, rfl⟩ := List.length_eq_one_iff.mp (hl ▸ hx)
          rfl
      · rename_i hl
        split at h
        · rename_i x
          injection h with h; subst h
          have := map_elem (f := f x) (v := .arr ys) h₂ rfl
          exact ⟨this.1, fun i hi => (this.2 i hi).trans rfl⟩
        · rename_i y _
          injection h with h; subst h
          have := map_elem (f := (f · y)) (v := .arr xs) h₁ rfl
          exact ⟨this.1, fun i hi => (this.2 i hi).trans rfl⟩
        · cases h

theorem pdiv_elem {v₁ v₂ w : Val} {n : ℕ} (h₁ : v₁.Shaped n) (h₂ : v₂.Shaped n)
    (h : Val.pdiv v₁ v₂ = .ok w) : w.Shaped n ∧ ∀ i < n, w.get i = v₁.get i / v₂.get i := by
  have gen : Val.map₂ (· / ·) v₁ v₂ = .ok w →
      w.Shaped n ∧ ∀ i < n, w.get i = v₁.get i / v₂.get i := fun h => map₂_elem h₁ h₂ h
  cases v₁ <;> cases v₂ <;> try exact gen h
  simp only [Val.pdiv] at h
  split at h
  · cases h
  · injection h with h; subst h; simp [Val.Shaped, Val.get]

/-- No literal `None` occurs. -/
def Expr.noNone : Expr → Bool
  | .arg _ => true
  | .attr _ => true
  | .lit _ => true
  | .noneLit => false
  | .un _ e => e.noNone
  | .bin _ e₁ e₂ => e₁.noNone && e₂.noNone
  | .pdiv e₁ e₂ => e₁.noNone && e₂.noNone
  | .ite c e₁ e₂ => c.noNone && (e₁.noNone && e₂.noNone)

/-- Element `i` of a store. -/
noncomputable def Attrs.at (a : Attrs) (i : ℕ) : String → ℝ := fun x => ((a x).getD .none).get i

theorem bind_ok {α β : Type} {x : Except PyErr α} {f : α → Except PyErr β} {w : β}
    (h : (x >>= f) = .ok w) : ∃ v, x = .ok v ∧ f v = .ok w := by
  cases x with
  | error e => cases h
  | ok v => exact ⟨v, rfl, h⟩

/-- **Elementwise evaluation.** If all arguments and attributes read are numbers or arrays of length
`n` (or one) and evaluation does not raise, then element `i` of the result is the formula applied to
the elements `i`. -/
theorem eval_elem (args a : Attrs) (n : ℕ) (hargs : ∀ x v, args x = some v → v.Shaped n) (e : Expr) :
    (∀ x ∈ e.reads, ∀ v, a x = some v → v.Shaped n) → e.noNone = true →
    ∀ v, e.eval args a = .ok v →
    v.Shaped n ∧ ∀ i < n, v.get i = e.evalR (args.at i) (a.at i) := by
  induction e with
  | arg x =>
    intro _ _ v h
    simp only [Expr.eval] at h
    split at h
    · rename_i w hw
      injection h with h; subst h
      exact ⟨hargs x _ hw, fun i _ => by simp [Expr.evalR, Attrs.at, hw]⟩
    · cases h
  | attr x =>
    intro ha _ v h
    simp only [Expr.eval] at h
    split at h
    · rename_i w hw
      injection h with h; subst h
      exact ⟨ha x (by simp [Expr.reads]) _ hw, fun i _ => by simp [Expr.evalR, Attrs.at, hw]⟩
    · cases h
  | lit x =>
    intro _ _ v h
    simp only [Expr.eval] at h
    injection h with h; subst h
    exact ⟨trivial, fun i _ => rfl⟩
  | noneLit => intro _ h; simp [Expr.noNone] at h
  | un f e ih =>
    intro ha hn v h
    obtain ⟨u, hu, h⟩ := bind_ok h
    obtain ⟨s, g⟩ := ih ha hn u hu
    obtain ⟨s', g'⟩ := map_elem s h
    exact ⟨s', fun i hi => by rw [g' i hi, g i hi]; rfl⟩
  | bin f e₁ e₂ ih₁ ih₂ =>
    intro ha hn v h
    simp only [Expr.noNone, Bool.and_eq_true] at hn
    obtain ⟨u₁, hu₁, h⟩ := bind_ok h
    obtain ⟨u₂, hu₂, h⟩ := bind_ok h
    obtain ⟨s₁, g₁⟩ := ih₁ (fun x hx => ha x (by simp [Expr.reads, hx])) hn.1 u₁ hu₁
    obtain ⟨s₂, g₂⟩ := ih₂ (fun x hx => ha x (by simp [Expr.reads, hx])) hn.2 u₂ hu₂
    obtain ⟨s', g'⟩ := map₂_elem s₁ s₂ h
    exact ⟨s', fun i hi => by rw [g' i hi, g₁ i hi, g₂ i hi]; rfl⟩
  | pdiv e₁ e₂ ih₁ ih₂ =>
    intro ha hn v h
    simp only [Expr.noNone, Bool.and_eq_true] at hn
    obtain ⟨u₁, hu₁, h⟩ := bind_ok h
    obtain ⟨u₂, hu₂, h⟩ := bind_ok h
    obtain ⟨s₁, g₁⟩ := ih₁ (fun x hx => ha x (by simp [Expr.reads, hx])) hn.1 u₁ hu₁
    obtain ⟨s₂, g₂⟩ := ih₂ (fun x hx => ha x (by simp [Expr.reads, hx])) hn.2 u₂ hu₂
    obtain ⟨s', g'⟩ := pdiv_elem s₁ s₂ h
    exact ⟨s', fun i hi => by rw [g' i hi, g₁ i hi, g₂ i hi]; rfl⟩
  | ite c e₁ e₂ ihc ih₁ ih₂ =>
    intro ha hn v h
    simp only [Expr.noNone, Bool.and_eq_true] at hn
    obtain ⟨u, hu, h⟩ := bind_ok h
    obtain ⟨b, hb, h⟩ := bind_ok h
    obtain ⟨sc, gc⟩ := ihc (fun x hx => ha x (by simp [Expr.reads, hx])) hn.1 u hu
    have hb' : ∀ i, b = true ↔ u.get i ≠ 0 := by
      intro i
      cases u with
      | none => simp [Val.Shaped] at sc
      | str s => simp [Val.Shaped] at sc
      | num x => simp only [Val.nonzero, Except.ok.injEq] at hb; subst hb; simp [Val.get]
      | arr xs =>
        match xs with
        | [] => simp [Val.nonzero] at hb
        | [x] => simp only [Val.nonzero, Except.ok.injEq] at hb; subst hb; simp [Val.get]
        | x :: y :: xs => simp [Val.nonzero] at hb
    cases b with
    | true =>
      obtain ⟨s, g⟩ := ih₁ (fun x hx => ha x (by simp [Expr.reads, hx])) hn.2.1 v (by simpa using h)
      refine ⟨s, fun i hi => ?_⟩
      rw [g i hi]
      simp only [Expr.evalR]
      rw [if_pos]
      rw [← gc i hi]; exact (hb' i).mp rfl
    | false =>
      obtain ⟨s, g⟩ := ih₂ (fun x hx => ha x (by simp [Expr.reads, hx])) hn.2.2 v (by simpa using h)
      refine ⟨s, fun i hi => ?_⟩
      rw [g i hi]
      simp only [Expr.evalR]
      rw [if_neg]
      rw [← gc i hi]
      intro hc
      exact absurd ((hb' i).mpr hc) (by simp)

/-- Sufficient conditions for evaluation not to raise: everything read exists, divisions between
possibly plain numbers have a nonzero divisor, and conditions are on numbers. -/
def Expr.Ok (args a : Attrs) : Expr → Prop
  | .arg x => (args x).isSome
  | .attr x => (a x).isSome
  | .lit _ => True
  | .noneLit => False
  | .un _ e => e.Ok args a
  | .bin _ e₁ e₂ => e₁.Ok args a ∧ e₂.Ok args a
  | .pdiv e₁ e₂ => e₁.Ok args a ∧ e₂.Ok args a ∧ e₂.evalR (args.at 0) (a.at 0) ≠ 0
  | .ite c e₁ e₂ => (∃ x, c.eval args a = .ok (.num x)) ∧ e₁.Ok args a ∧ e₂.Ok args a

theorem broadcast_ok (f : ℝ → ℝ → ℝ) {xs ys : List ℝ} {n : ℕ}
    (h₁ : (Val.arr xs).Shaped n) (h₂ : (Val.arr ys).Shaped n) : ∃ w, broadcast f xs ys = .ok w := by
  unfold broadcast
  split
  · exact ⟨_, rfl⟩
  · split
    · exact ⟨_, rfl⟩
    · exact ⟨_, rfl⟩
    · rename_i hne _ _ hx hy
      exfalso
      rcases (show xs.length = n ∨ xs.length = 1 from h₁) with h₁ | h₁
      · rcases (show ys.length = n ∨ ys.length = 1 from h₂) with h₂ | h₂
        · omega
        · obtain ⟨y, rfl⟩ := List.length_eq_one_iff.mp h₂; exact hy _ rfl
      · obtain ⟨x, rfl⟩ := List.length_eq_one_iff.mp h₁; exact hx _ rfl

theorem map₂_ok (f : ℝ → ℝ → ℝ) {v₁ v₂ : Val} {n : ℕ} (h₁ : v₁.Shaped n) (h₂ : v₂.Shaped n) :
    ∃ w, Val.map₂ f v₁ v₂ = .ok w := by
  cases v₁ <;> cases v₂ <;> simp only [Val.Shaped] at h₁ h₂ <;> try exact ⟨_, rfl⟩
  exact broadcast_ok f h₁ h₂

/-- Evaluation does not raise under these conditions. -/
theorem eval_ok (args a : Attrs) (n : ℕ) (hn0 : 0 < n)
    (hargs : ∀ x v, args x = some v → v.Shaped n) (e : Expr) :
    (∀ x ∈ e.reads, ∀ v, a x = some v → v.Shaped n) → e.noNone = true → e.Ok args a →
    ∃ v, e.eval args a = .ok v := by
  induction e with
  | arg x =>
    intro _ _ h
    obtain ⟨v, hv⟩ := Option.isSome_iff_exists.mp h
    exact ⟨v, by simp [Expr.eval, hv]⟩
  | attr x =>
    intro _ _ h
    obtain ⟨v, hv⟩ := Option.isSome_iff_exists.mp h
    exact ⟨v, by simp [Expr.eval, hv]⟩
  | lit x => intro _ _ _; exact ⟨_, rfl⟩
  | noneLit => intro _ h; simp [Expr.noNone] at h
  | un f e ih =>
    intro ha hn h
    obtain ⟨v, hv⟩ := ih ha hn h
    obtain ⟨s, -⟩ := eval_elem args a n hargs e ha hn v hv
    cases v <;> simp only [Val.Shaped] at s
    · exact ⟨_, by simp only [Expr.eval, hv]; rfl⟩
    · exact ⟨_, by simp only [Expr.eval, hv]; rfl⟩
  | bin f e₁ e₂ ih₁ ih₂ =>
    intro ha hn h
    simp only [Expr.noNone, Bool.and_eq_true] at hn
    obtain ⟨v₁, hv₁⟩ := ih₁ (fun x hx => ha x (by simp [Expr.reads, hx])) hn.1 h.1
    obtain ⟨v₂, hv₂⟩ := ih₂ (fun x hx => ha x (by simp [Expr.reads, hx])) hn.2 h.2
    obtain ⟨s₁, -⟩ := eval_elem args a n hargs e₁ (fun x hx => ha x (by simp [Expr.reads, hx])) hn.1 _ hv₁
    obtain ⟨s₂, -⟩ := eval_elem args a n hargs e₂ (fun x hx => ha x (by simp [Expr.reads, hx])) hn.2 _ hv₂
    obtain ⟨w, hw⟩ := map₂_ok f s₁ s₂
    exact ⟨w, by simp only [Expr.eval, hv₁, hv₂]; exact hw⟩
  | pdiv e₁ e₂ ih₁ ih₂ =>
    intro ha hn h
    simp only [Expr.noNone, Bool.and_eq_true] at hn
    obtain ⟨v₁, hv₁⟩ := ih₁ (fun x hx => ha x (by simp [Expr.reads, hx])) hn.1 h.1
    obtain ⟨v₂, hv₂⟩ := ih₂ (fun x hx => ha x (by simp [Expr.reads, hx])) hn.2 h.2.1
    obtain ⟨s₁, -⟩ := eval_elem args a n hargs e₁ (fun x hx => ha x (by simp [Expr.reads, hx])) hn.1 _ hv₁
    obtain ⟨s₂, g₂⟩ := eval_elem args a n hargs e₂ (fun x hx => ha x (by simp [Expr.reads, hx])) hn.2 _ hv₂
    have hne := h.2.2
    rw [← g₂ 0 hn0] at hne
    simp only [Expr.eval, hv₁, hv₂]
    obtain ⟨w, hw⟩ := map₂_ok (· / ·) s₁ s₂
    cases v₁ <;> cases v₂ <;> simp only [Val.Shaped] at s₁ s₂ <;> try exact ⟨w, hw⟩
    rename_i x y
    exact ⟨.num (x / y), by simp only [Val.get] at hne; simp [bind, Except.bind, Val.pdiv, hne]⟩
  | ite c e₁ e₂ ihc ih₁ ih₂ =>
    intro ha hn h
    simp only [Expr.noNone, Bool.and_eq_true] at hn
    obtain ⟨⟨x, hx⟩, h1, h2⟩ := h
    obtain ⟨v₁, hv₁⟩ := ih₁ (fun x hx => ha x (by simp [Expr.reads, hx])) hn.2.1 h1
    obtain ⟨v₂, hv₂⟩ := ih₂ (fun x hx => ha x (by simp [Expr.reads, hx])) hn.2.2 h2
    simp only [Expr.eval, hx, hv₁, hv₂]
    by_cases h0 : x = 0
    · exact ⟨v₂, by simp [bind, Except.bind, Val.nonzero, h0]⟩
    · exact ⟨v₁, by simp [bind, Except.bind, Val.nonzero, h0]⟩

/-- Scalar evaluation: on plain numbers the result is the plain number given by the formula. -/
theorem eval_scalar (args a : Attrs) (hargs : ∀ x v, args x = some v → ∃ y, v = .num y) (e : Expr) :
    (∀ x ∈ e.reads, ∀ v, a x = some v → ∃ y, v = .num y) → e.noNone = true → e.Ok args a →
    e.eval args a = .ok (.num (e.evalR (args.at 0) (a.at 0))) := by
  induction e with
  | arg x =>
    intro _ _ h
    obtain ⟨v, hv⟩ := Option.isSome_iff_exists.mp h
    obtain ⟨y, rfl⟩ := hargs x v hv
    simp [Expr.eval, hv, Expr.evalR, Attrs.at, Val.get]
  | attr x =>
    intro ha _ h
    obtain ⟨v, hv⟩ := Option.isSome_iff_exists.mp h
    obtain ⟨y, rfl⟩ := ha x (by simp [Expr.reads]) v hv
    simp [Expr.eval, hv, Expr.evalR, Attrs.at, Val.get]
  | lit x => intro _ _ _; rfl
  | noneLit => intro _ h; simp [Expr.noNone] at h
  | un f e ih =>
    intro ha hn h
    simp only [Expr.eval, ih ha hn h]; rfl
  | bin f e₁ e₂ ih₁ ih₂ =>
    intro ha hn h
    simp only [Expr.noNone, Bool.and_eq_true] at hn
    simp only [Expr.eval, ih₁ (fun x hx => ha x (by simp [Expr.reads, hx])) hn.1 h.1,
      ih₂ (fun x hx => ha x (by simp [Expr.reads, hx])) hn.2 h.2]
    rfl
  | pdiv e₁ e₂ ih₁ ih₂ =>
    intro ha hn h
    simp only [Expr.noNone, Bool.and_eq_true] at hn
    simp only [Expr.eval, ih₁ (fun x hx => ha x (by simp [Expr.reads, hx])) hn.1 h.1,
      ih₂ (fun x hx => ha x (by simp [Expr.reads, hx])) hn.2 h.2.1]
    simp [bind, Except.bind, Val.pdiv, h.2.2]
  | ite c e₁ e₂ ihc ih₁ ih₂ =>
    intro ha hn h
    simp only [Expr.noNone, Bool.and_eq_true] at hn
    obtain ⟨⟨x, hx⟩, h1, h2⟩ := h
    obtain ⟨_, gc⟩ := eval_elem args a 1 (fun x v hv => by
        obtain ⟨y, rfl⟩ := hargs x v hv; trivial) c (fun x hx v hv => by
        obtain ⟨y, rfl⟩ := ha x (by simp [Expr.reads, hx]) v hv; trivial) hn.1 _ hx
    have hg := gc 0 (by omega)
    simp only [Val.get] at hg
    have i1 := ih₁ (fun x hx => ha x (by simp [Expr.reads, hx])) hn.2.1 h1
    have i2 := ih₂ (fun x hx => ha x (by simp [Expr.reads, hx])) hn.2.2 h2
    simp only [Expr.eval, hx, i1, i2, Expr.evalR, ← hg]
    by_cases h0 : x = 0
    · simp [bind, Except.bind, Val.nonzero, h0]
    · simp [bind, Except.bind, Val.nonzero, h0]

end Verif
