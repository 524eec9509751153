import Verif.Model.MCRound
import Verif.Props.MC
import Verif.Props.TreeRoundingFactors

/-! C138: Monte Carlo prices in floating-point arithmetic. -/
namespace Verif.Props
open Verif Verif.Spec Real MCRound

/-- Size of the two numbers added in a step of a path, for an innovation of size `z`. -/
noncomputable def stepSize (t b σ : ℝ) (m : ℕ) (z : ℝ) : ℝ := (|b| + σ ^ 2 / 2) * (t / m) + σ * √(t / m) * z

/-- Error level of the price a payoff depends on, for innovations with level `ζ` and paths of `m` steps whose sizes add up to at
most `M`, if sums have depth `d`. -/
noncomputable def mcLevel (k : MC.Kind) (e ζ M : ℝ) (m d : ℕ) : ℝ :=
  match k with
  | .vanilla => (exp ζ * (1 + e) ^ (6 + d) - 1) * M + 2 * log (1 + e)
  | .asian => (exp ζ * (1 + e) ^ (6 + m) - 1) * M + (3 + d) * log (1 + e)

/-- Error level of standardized innovations, if sums over all of them have depth `d`: `κ` is the mean of `(|x| + mean |x|)^2`
divided by the variance. -/
noncomputable def stdLevel (e κ : ℝ) (d : ℕ) : ℝ :=
  (3 + d) * log (1 + e) - log (2 - (1 + e) * (1 + ((1 + e) ^ (6 + 3 * d) - 1) * κ))

theorem perm_map_lift {α β : Type} (f : α → β) {t : List α} {l : List β} (h : (t.map f).Perm l) :
    ∃ u, u.map f = l ∧ t.Perm u := by
  have h1 : l.Perm (t.map f) := h.symm
  have h2 : Relation.Comp (fun x y => x = List.map f y) List.Perm l t := by
    rw [List.eq_map_comp_perm]; exact h1
  obtain ⟨u, hu, hp⟩ := h2
  exact ⟨u, hu.symm, hp.symm⟩

section
variable {e : ℝ} {A : Arith} (hA : Rounded e A) (he : 0 ≤ e) (he1 : e ≤ 1)
include hA he

/-- A sum of approximations. -/
theorem summed_err {d : ℕ} {x : List ℝ} {s : ℝ} (hs : Summed A d x s) {θ : ℝ} (hθ : 0 ≤ θ) :
    ∀ t : List (ℝ × ℝ × ℝ), (∀ p ∈ t, Err θ p.1 p.2.1 p.2.2) → x = t.map (·.1) →
      Err (θ + d * log (1 + e)) s (t.map (·.2.1)).sum (t.map (·.2.2)).sum := by
  have hl : 0 ≤ log (1 + e) := log_nonneg (by linarith)
  induction hs with
  | nil d =>
    intro t ht hx
    obtain rfl : t = [] := by simpa using hx.symm
    simpa using (Err.rfl' (y := 0) (B := 0) (by simp)).mono (θ' := θ + d * log (1 + e)) (by positivity)
  | one d y =>
    intro t ht hx
    obtain ⟨p, rfl⟩ : ∃ p, t = [p] := by
      rw [← List.length_eq_one_iff, ← List.length_map (f := (·.1)), ← hx]; rfl
    have hp : y = p.1 := by simpa using hx
    subst hp
    simpa using (ht p (by simp)).mono (θ' := θ + d * log (1 + e)) (by nlinarith [mul_nonneg (Nat.cast_nonneg (α := ℝ) d) hl])
  | @add d l l' l'' a b h h' hp ih ih' =>
    intro t ht hx
    obtain ⟨u, hu, hup⟩ := perm_map_lift (fun p : ℝ × ℝ × ℝ => p.1) (hx ▸ hp)
    obtain ⟨u1, u2, rfl, h1, h2⟩ := List.map_eq_append_iff.1 hu
    have e1 := ih u1 (fun p hp => ht p (hup.mem_iff.2 (by simp [hp]))) h1.symm
    have e2 := ih' u2 (fun p hp => ht p (hup.mem_iff.2 (by simp [hp]))) h2.symm
    have e3 := (e1.add e2).round he (hA.add a b)
    rw [(hup.map _).sum_eq, (hup.map (·.2.2)).sum_eq, List.map_append, List.map_append, List.sum_append, List.sum_append]
    refine e3.mono ?_
    push_cast
    linarith

/-- The same for a list given by functions. -/
theorem summed_map {ι : Type} {d : ℕ} {l : List ι} {f g h : ι → ℝ} {s θ : ℝ} (hs : Summed A d (l.map f) s) (hθ : 0 ≤ θ)
    (H : ∀ i ∈ l, Err θ (f i) (g i) (h i)) : Err (θ + d * log (1 + e)) s (l.map g).sum (l.map h).sum := by
  have := summed_err hA he hs hθ (l.map fun i => (f i, g i, h i)) (by simpa using H) (by simp)
  simp only [List.map_map] at this
  exact this

/-- Dividing by a number of entries. -/
theorem mean_err {θ x y B : ℝ} (h : Err θ x y B) (n : ℕ) : Err (θ + log (1 + e)) (A.div x n) (y / n) (B / n) := by
  have h2 : Err 0 ((n : ℝ)⁻¹) (n : ℝ)⁻¹ (n : ℝ)⁻¹ := Err.rfl' (abs_of_nonneg (by positivity)).le
  have := (h.mul h2).round he (z := A.div x n) (by rw [← div_eq_mul_inv]; exact hA.div _ _)
  rwa [add_zero, ← div_eq_mul_inv, ← div_eq_mul_inv] at this

include he1 in
/-- A step of a path. -/
theorem step_err {o : MC.Opt} {t : ℝ} {m : ℕ} (ht : 0 ≤ t) (hσ : 0 ≤ o.sigma) (hdt : o.dt = A.div t m)
    {ζ z' z Z : ℝ} (hζ : 0 ≤ ζ) (hz : Err ζ z' z Z) :
    Err (6 * log (1 + e) + ζ) (step A o z') ((o.b - o.sigma ^ 2 / 2) * (t / m) + o.sigma * √(t / m) * z)
      (stepSize t o.b o.sigma m Z) := by
  have hl : 0 ≤ log (1 + e) := log_nonneg (by linarith)
  have a1 := (Err.rfl' (y := o.sigma ^ 2) (abs_of_nonneg (sq_nonneg _)).le).round he (hA.pow o.sigma 2)
  have a2 := rel_half hA he a1
  have a3 := (((Err.rfl' (y := o.b) le_rfl).mono (θ' := 0 + log (1 + e) + log (1 + e)) (by linarith)).sub a2).round he (hA.sub _ _)
  have a4 := (a3.mul (dt_err hA he ht m)).round he (hA.mul _ _)
  have b1 := ((Err.rfl' (y := o.sigma) (abs_of_nonneg hσ).le).mul (sqrt_dt_err hA he he1 ht m)).round he (hA.mul _ _)
  have b2 := (b1.mul hz).round he (hA.mul _ _)
  have c := ((a4.mono (θ' := 5 * log (1 + e) + ζ) (by linarith)).add (b2.mono (by linarith))).round he (hA.add _ _)
  rw [← hdt] at c
  exact c.mono (by linarith)

/-- Running sums. -/
theorem cumsumFrom_err {θ : ℝ} (hθ : 0 ≤ θ) (l : List ℝ) (f g h : ℝ → ℝ) (H : ∀ z ∈ l, Err θ (f z) (g z) (h z)) :
    ∀ (n : ℕ) (a y B : ℝ), Err (θ + n * log (1 + e)) a y B →
      ∃ u : List (ℝ × ℝ), (cumsumFrom A a (l.map f)) = u.map (·.1) ∧ MC.cumsum y (l.map g) = u.map (·.2) ∧
        ∀ p ∈ u, Err (θ + (n + l.length) * log (1 + e)) p.1 p.2 (B + (l.map h).sum) := by
  have hl : 0 ≤ log (1 + e) := log_nonneg (by linarith)
  induction l with
  | nil => intro n a y B _; exact ⟨[], rfl, rfl, by simp⟩
  | cons z l ih =>
    intro n a y B hB
    have hz := H z (by simp)
    have hn : 0 ≤ (n : ℝ) * log (1 + e) := by positivity
    have h1 := (hB.add (hz.mono (θ' := θ + n * log (1 + e)) (by linarith))).round he (hA.add _ _)
    have h2 := h1.mono (θ' := θ + (n + 1 : ℕ) * log (1 + e)) (by push_cast; linarith)
    obtain ⟨u, hu1, hu2, hu⟩ := ih (fun w hw => H w (by simp [hw])) (n + 1) _ _ _ h2
    have hs : 0 ≤ (l.map h).sum := List.sum_nonneg (by
      intro w hw
      obtain ⟨v, hv, rfl⟩ := List.mem_map.1 hw
      exact (H v (by simp [hv])).nonneg)
    have hl0 : 0 ≤ (l.length : ℝ) * log (1 + e) := by positivity
    refine ⟨(_, _) :: u, by simp [cumsumFrom, hu1]; exact rfl, by simp [MC.cumsum, hu2]; exact rfl, ?_⟩
    intro p hp
    rcases List.mem_cons.1 hp with rfl | hp
    · refine (h2.mono ?_).weaken ?_ ?_
      · push_cast [List.length_cons]; linarith
      · push_cast [List.length_cons]; nlinarith
      · simp only [List.map_cons, List.sum_cons]; linarith
    · have := hu p hp
      simp only [List.map_cons, List.sum_cons, List.length_cons]
      rw [← add_assoc]
      convert this using 2
      push_cast; ring

theorem cumsum_err {θ : ℝ} (hθ : 0 ≤ θ) (l : List ℝ) (f g h : ℝ → ℝ) (H : ∀ z ∈ l, Err θ (f z) (g z) (h z)) :
    ∃ u : List (ℝ × ℝ), (MCRound.cumsum A (l.map f)) = u.map (·.1) ∧ MC.cumsum 0 (l.map g) = u.map (·.2) ∧
      u.length = l.length ∧ ∀ p ∈ u, Err (θ + l.length * log (1 + e)) p.1 p.2 (l.map h).sum := by
  have hl : 0 ≤ log (1 + e) := log_nonneg (by linarith)
  have len : ∀ (a : ℝ) (l : List ℝ), (MC.cumsum a l).length = l.length := by
    intro a l
    induction l generalizing a with
    | nil => rfl
    | cons x l ih => simp [MC.cumsum, ih]
  suffices hh : ∃ u : List (ℝ × ℝ), (MCRound.cumsum A (l.map f)) = u.map (·.1) ∧ MC.cumsum 0 (l.map g) = u.map (·.2) ∧
      ∀ p ∈ u, Err (θ + l.length * log (1 + e)) p.1 p.2 (l.map h).sum by
    obtain ⟨u, h1, h2, h3⟩ := hh
    refine ⟨u, h1, h2, ?_, h3⟩
    have := congrArg List.length h2
    simpa [len] using this.symm
  cases l with
  | nil => exact ⟨[], rfl, rfl, by simp⟩
  | cons z l =>
    have hz := H z (by simp)
    obtain ⟨u, hu1, hu2, hu⟩ := cumsumFrom_err hA he hθ l f g h (fun w hw => H w (by simp [hw])) 0 (f z) (g z) (h z)
      (hz.mono (by simp))
    have hs : 0 ≤ (l.map h).sum := List.sum_nonneg (by
      intro w hw
      obtain ⟨v, hv, rfl⟩ := List.mem_map.1 hw
      exact (H v (by simp [hv])).nonneg)
    have hl0 : 0 ≤ (l.length : ℝ) * log (1 + e) := by positivity
    refine ⟨(f z, g z) :: u, by simp [MCRound.cumsum, hu1], by simp [MC.cumsum, hu2], ?_⟩
    intro p hp
    rcases List.mem_cons.1 hp with rfl | hp
    · refine (hz.mono ?_).weaken ?_ ?_
      · push_cast [List.length_cons]; linarith
      · push_cast [List.length_cons]; linarith
      · simp only [List.map_cons, List.sum_cons]; linarith
    · have := hu p hp
      simp only [List.map_cons, List.sum_cons]
      refine this.mono ?_
      push_cast [List.length_cons]
      linarith

/-- The price a payoff depends on. -/
theorem kindPrice_err {sum : List ℝ → ℝ} (he1 : e ≤ 1) (k : MC.Kind) {o o' : MC.Opt} {t M : ℝ} {m d : ℕ} (ht : 0 ≤ t)
    (hS : 0 ≤ o.S) (hσ : 0 ≤ o.sigma) (hdt : o.dt = A.div t m) (ho' : o' = { o with dt := t / m })
    {row : List ℝ} (hrow : row.length = m) {ζ : ℝ} (hζ : 0 ≤ ζ) {f g h : ℝ → ℝ} (hf : ∀ z ∈ row, Err ζ (f z) (g z) (h z))
    (hM : (row.map fun z => stepSize t o.b o.sigma m (h z)).sum ≤ M)
    (hsum : ∀ l : List ℝ, l.length = m → Summed A d l (sum l)) :
    Err (mcLevel k e ζ M m d) (kindPrice A sum k o (row.map fun z => step A o (f z)))
      (k.price o' (row.map fun z => (o'.b - o'.sigma ^ 2 / 2) * o'.dt + o'.sigma * √o'.dt * g z))
      (k.price o' (row.map fun z => (o'.b - o'.sigma ^ 2 / 2) * o'.dt + o'.sigma * √o'.dt * g z)) := by
  subst ho'
  have hl : 0 ≤ log (1 + e) := log_nonneg (by linarith)
  have hstep := fun z hz => step_err hA he he1 (o := o) ht hσ hdt hζ (hf z hz)
  have hpow : ∀ n : ℕ, exp (6 * log (1 + e) + ζ + n * log (1 + e)) = exp ζ * (1 + e) ^ (6 + n) := fun n => by
    rw [← exp_nat_log he, ← exp_add]
    congr 1
    push_cast; ring
  have hM0 : 0 ≤ M := le_trans (List.sum_nonneg (by
    intro w hw
    obtain ⟨v, hv, rfl⟩ := List.mem_map.1 hw
    exact (hstep v hv).nonneg)) hM
  have hrel : ∀ {θ x' x : ℝ} , Err θ x' x M → Err ((exp θ - 1) * M + 2 * log (1 + e)) (A.mul o.S (A.exp x'))
      (o.S * exp x) (o.S * exp x) := by
    intro θ x' x h
    have h1 := rel_exp hA he h
    have h2 := ((Err.rfl' (y := o.S) (abs_of_nonneg hS).le).mul h1).round he (hA.mul _ _)
    exact h2.mono (by linarith)
  cases k with
  | vanilla =>
    have h1 := summed_map hA he (hsum _ (by simpa using hrow)) (by positivity) hstep
    have h2 := h1.weaken (by positivity) hM
    have h3 := hrel h2
    rw [hpow] at h3
    exact h3
  | asian =>
    obtain ⟨u, hu1, hu2, hul, hu⟩ := cumsum_err hA he (θ := 6 * log (1 + e) + ζ) (by positivity) row _ _ _ hstep
    have h2 : ∀ p ∈ u, Err ((exp ζ * (1 + e) ^ (6 + m) - 1) * M + 2 * log (1 + e)) (A.mul o.S (A.exp p.1)) (o.S * exp p.2)
        (o.S * exp p.2) := by
      intro p hp
      have h3 := hrel ((hu p hp).weaken (by positivity) hM)
      rwa [hrow, hpow] at h3
    have hp1 : 1 ≤ exp ζ * (1 + e) ^ (6 + m) := one_le_mul_of_one_le_of_one_le (one_le_exp hζ) (one_le_pow₀ (by linarith))
    have h3 := summed_map hA he (hsum (u.map fun p => A.mul o.S (A.exp p.1)) (by rw [List.length_map, hul, hrow]))
      (by nlinarith [mul_nonneg (sub_nonneg.2 hp1) hM0]) h2
    have h4 := mean_err hA he h3 m
    have l1 : ((u.map fun p => A.mul o.S (A.exp p.1)).length : ℝ) = m := by rw [List.length_map, hul, hrow]
    have e1 : kindPrice A sum .asian o (row.map fun z => step A o (f z)) = A.div (sum (u.map fun p => A.mul o.S (A.exp p.1))) m := by
      simp only [kindPrice, MCRound.mean]
      rw [hu1, List.map_map]
      change A.div (sum (u.map fun p => A.mul o.S (A.exp p.1))) ((u.map fun p => A.mul o.S (A.exp p.1)).length : ℝ) = _
      rw [l1]
    have e2 : MC.Kind.price .asian { o with dt := t / m }
        (row.map fun z => (o.b - o.sigma ^ 2 / 2) * (t / m) + o.sigma * √(t / m) * g z)
        = (u.map fun p => o.S * exp p.2).sum / m := by
      simp only [MC.Kind.price, MC.asianPrice, MC.mean]
      rw [hu2, List.map_map]
      change (u.map fun p => o.S * exp p.2).sum / ((u.map fun p => o.S * exp p.2).length : ℝ) = _
      rw [List.length_map, hul, hrow]
    rw [e1]
    change Err _ _ (MC.Kind.price .asian { o with dt := t / m } _) (MC.Kind.price .asian { o with dt := t / m } _)
    rw [e2]
    refine h4.mono ?_
    simp only [mcLevel]
    linarith

omit hA he in
theorem kindPrice_nonneg (k : MC.Kind) {o : MC.Opt} (hS : 0 ≤ o.S) (path : List ℝ) : 0 ≤ k.price o path := by
  cases k with
  | vanilla => exact mul_nonneg hS (exp_pos _).le
  | asian =>
    refine div_nonneg (List.sum_nonneg ?_) (Nat.cast_nonneg _)
    intro x hx
    obtain ⟨y, -, rfl⟩ := List.mem_map.1 hx
    exact mul_nonneg hS (exp_pos _).le

/-- The discounted payoff of a path. -/
theorem payoff_err (call : Bool) {r t K θ x' x : ℝ} (ht : 0 ≤ t) (hK : 0 ≤ K) (hθ : 0 ≤ θ) (h : Err θ x' x x) :
    Err (θ + e * (|r| * t) + 3 * log (1 + e))
      (A.mul (A.exp (A.mul (-r) t)) (if call then max (A.sub x' K) 0 else max (A.sub K x') 0))
      (exp (-r * t) * (if call then max (x - K) 0 else max (K - x) 0)) (exp (-r * t) * (x + K)) := by
  have hl : 0 ≤ log (1 + e) := log_nonneg (by linarith)
  have hk := (Err.rfl' (y := K) (abs_of_nonneg hK).le).mono hθ
  have h0 : Err (θ + log (1 + e)) (0 : ℝ) 0 (x + K) := by
    have h1 := one_le_exp (show 0 ≤ θ + log (1 + e) by linarith)
    have h2 := add_nonneg h.nonneg hK
    refine ⟨?_, by simpa using h2⟩
    rw [sub_zero, abs_zero]
    exact mul_nonneg (by linarith) h2
  have p : Err (θ + log (1 + e)) (if call then max (A.sub x' K) 0 else max (A.sub K x') 0)
      (if call then max (x - K) 0 else max (K - x) 0) (x + K) := by
    cases call
    · have := ((hk.sub h).round he (hA.sub _ _))
      rw [add_comm K x] at this
      simpa using this.max h0
    · simpa using ((h.sub hk).round he (hA.sub _ _)).max h0
  have a1 := (Err.rfl' (y := -r * t) (B := |r| * t) (by rw [abs_mul, abs_neg, abs_of_nonneg ht])).round he (hA.mul (-r) t)
  have a2 := rel_exp hA he a1
  rw [zero_add, exp_log (by linarith), add_sub_cancel_left] at a2
  exact ((a2.mul p).round he (hA.mul _ _)).mono (by linarith)

omit hA he in
/-- The mean of `(|x| + mean |x|)^2` is at most four times the mean square. -/
theorem kappa_le (l : List ℝ) : (l.map fun x => (|x| + MC.mean (l.map abs)) ^ 2).sum / l.length
    ≤ 4 * ((l.map fun x => (x - MC.mean l) ^ 2).sum / l.length + MC.mean l ^ 2) := by
  rcases l.eq_nil_or_concat with rfl | ⟨l0, a, hl⟩
  · simp [MC.mean]
  have hn : (0 : ℝ) < l.length := by
    have : l ≠ [] := by simp [hl]
    have := List.length_pos_iff.2 this
    exact_mod_cast this
  have e1 : ∀ (u : List ℝ) (c : ℝ), (u.map fun x => (|x| + c) ^ 2).sum
      = (u.map fun x => x ^ 2).sum + 2 * c * (u.map abs).sum + u.length * c ^ 2 := by
    intro u c
    induction u with
    | nil => simp
    | cons x u ih =>
      simp only [List.map_cons, List.sum_cons, ih, List.length_cons]
      have := sq_abs x
      push_cast
      linear_combination this
  have e2 : ∀ (u : List ℝ) (c : ℝ), (u.map fun x => (x - c) ^ 2).sum
      = (u.map fun x => x ^ 2).sum - 2 * c * u.sum + u.length * c ^ 2 := by
    intro u c
    induction u with
    | nil => simp
    | cons x u ih =>
      simp only [List.map_cons, List.sum_cons, ih, List.length_cons]
      push_cast
      ring
  have e3 : ∀ (u : List ℝ) (c : ℝ), 0 ≤ (u.map fun x => x ^ 2).sum - 2 * c * (u.map abs).sum + u.length * c ^ 2 := by
    intro u c
    have h : (u.map fun x => x ^ 2).sum - 2 * c * (u.map abs).sum + u.length * c ^ 2 = (u.map fun x => (|x| - c) ^ 2).sum := by
      induction u with
      | nil => simp
      | cons x u ih =>
        simp only [List.map_cons, List.sum_cons, ← ih, List.length_cons]
        have := sq_abs x
        push_cast
        linear_combination -this
    rw [h]
    refine List.sum_nonneg ?_
    intro w hw
    obtain ⟨v, -, rfl⟩ := List.mem_map.1 hw
    positivity
  have h1 := e1 l (MC.mean (l.map abs))
  have h2 := e2 l (MC.mean l)
  have h3 := e3 l (MC.mean (l.map abs))
  have h4 : (l.map abs).sum = l.length * MC.mean (l.map abs) := by rw [MC.mean, List.length_map]; field_simp
  have h5 : l.sum = l.length * MC.mean l := by rw [MC.mean]; field_simp
  rw [h4] at h1 h3
  rw [h5] at h2
  have h6 : 4 * ((l.map fun x => (x - MC.mean l) ^ 2).sum / l.length + MC.mean l ^ 2)
      = 4 * ((l.map fun x => x ^ 2).sum) / l.length := by
    rw [h2]; field_simp; ring
  rw [h6, h1]
  refine div_le_div_of_nonneg_right ?_ hn.le
  nlinarith

/-- Standardized innovations. -/
theorem standard_err {sum : List ℝ → ℝ} {l : List ℝ} {d : ℕ} {κ : ℝ} (hs : ∀ l' : List ℝ, l'.length = l.length → Summed A d l' (sum l'))
    (hstd : 0 < MC.std l) (hκ : 4 * (MC.std l ^ 2 + MC.mean l ^ 2) ≤ κ * MC.std l ^ 2)
    (hlev : (1 + e) * (1 + ((1 + e) ^ (6 + 3 * d) - 1) * κ) < 2) :
    0 ≤ stdLevel e κ d ∧ ∀ x, Err (stdLevel e κ d) (standard A sum l x) ((x - MC.mean l) / MC.std l)
      ((|x| + MC.mean (l.map abs)) / MC.std l) := by
  have hl : 0 ≤ log (1 + e) := log_nonneg (by linarith)
  have hp1 : 1 ≤ (1 + e) ^ (6 + 3 * d) := one_le_pow₀ (by linarith)
  have hκ0 : 0 ≤ κ := by
    by_contra h
    have : κ * MC.std l ^ 2 < 0 := mul_neg_of_neg_of_pos (not_le.1 h) (by positivity)
    nlinarith [sq_nonneg (MC.std l), sq_nonneg (MC.mean l)]
  set μ := MC.mean (l.map abs) with hμ
  -- the mean
  have hm : Err ((d + 1) * log (1 + e)) (MCRound.mean A sum l) (MC.mean l) μ := by
    have h1 := summed_map hA he (f := fun x : ℝ => x) (g := fun x => x) (h := abs) (l := l) (θ := 0)
      (by simpa using hs l rfl) le_rfl (fun x _ => Err.rfl' le_rfl)
    have h2 := mean_err hA he h1 l.length
    simp only [List.map_id'] at h2
    have h3 : MC.mean (l.map abs) = (l.map abs).sum / l.length := by rw [MC.mean, List.length_map]
    rw [hμ, h3]
    exact h2.mono (by linarith)
  have hμ0 : 0 ≤ μ := hm.nonneg
  have hdiff : ∀ x, Err ((d + 2) * log (1 + e)) (A.sub x (MCRound.mean A sum l)) (x - MC.mean l) (|x| + μ) := fun x =>
    ((((Err.rfl' (y := x) le_rfl).mono (θ' := (d + 1) * log (1 + e)) (by positivity)).sub hm).round he (hA.sub _ _)).mono
      (by linarith)
  -- the variance
  have hsq : ∀ x, Err ((2 * d + 5) * log (1 + e))
      (A.mul (A.sub x (MCRound.mean A sum l)) (A.sub x (MCRound.mean A sum l))) ((x - MC.mean l) ^ 2) ((|x| + μ) ^ 2) := by
    intro x
    have := (((hdiff x).mul (hdiff x)).round he (hA.mul _ _)).mono (θ' := (2 * d + 5) * log (1 + e)) (by linarith)
    rwa [← sq, ← sq] at this
  have hvar := mean_err hA he (summed_map hA he (hs _ (by rw [List.length_map])) (by positivity) (fun x (_ : x ∈ l) => hsq x)) l.length
  have hvar' : MC.std l ^ 2 = (l.map fun x => (x - MC.mean l) ^ 2).sum / l.length := by
    have h0 : 0 ≤ MC.mean (l.map fun x => (x - MC.mean l) ^ 2) := by
      refine div_nonneg (List.sum_nonneg ?_) (Nat.cast_nonneg _)
      intro w hw
      obtain ⟨v, -, rfl⟩ := List.mem_map.1 hw
      positivity
    rw [MC.std, sq_sqrt h0, MC.mean, List.length_map]
  have hB : (l.map fun x => (|x| + μ) ^ 2).sum / l.length ≤ κ * MC.std l ^ 2 := by
    refine le_trans ?_ hκ
    rw [hvar']
    exact kappa_le l
  rw [← hvar'] at hvar
  set V := MC.std l ^ 2 with hV
  have hV0 : 0 < V := by positivity
  set ω := log (1 + ((1 + e) ^ (6 + 3 * d) - 1) * κ) with hω
  have hw0 : 0 ≤ ((1 + e) ^ (6 + 3 * d) - 1) * κ := mul_nonneg (by linarith) hκ0
  have hω0 : 0 ≤ ω := log_nonneg (by linarith)
  have hexp : exp ω = 1 + ((1 + e) ^ (6 + 3 * d) - 1) * κ := exp_log (by linarith)
  have hrel : Err ω (A.div (sum (l.map fun x => A.mul (A.sub x (MCRound.mean A sum l)) (A.sub x (MCRound.mean A sum l)))) l.length)
      V V := by
    refine ⟨hvar.err.trans ?_, (abs_of_pos hV0).le⟩
    have h1 : exp ((2 * d + 5) * log (1 + e) + d * log (1 + e) + log (1 + e)) = (1 + e) ^ (6 + 3 * d) := by
      rw [← exp_nat_log he]
      congr 1
      push_cast; ring
    rw [h1, hexp, add_sub_cancel_left, mul_assoc]
    exact mul_le_mul_of_nonneg_left hB (by linarith)
  have hsqrt := rel_sqrt hA he hrel (by rw [hexp]; nlinarith)
  have hroot : √V = MC.std l := by rw [hV, sqrt_sq hstd.le]
  rw [hroot] at hsqrt
  have hmul : exp (ω + log (1 + e)) = (1 + e) * (1 + ((1 + e) ^ (6 + 3 * d) - 1) * κ) := by
    rw [exp_add, hexp, exp_log (by linarith), mul_comm]
  have hinv := (rel_inv hsqrt hstd (by rw [hmul]; exact hlev)).2
  rw [hmul] at hinv
  have hstdA : MCRound.std A sum l = A.sqrt (A.div
      (sum (l.map fun x => A.mul (A.sub x (MCRound.mean A sum l)) (A.sub x (MCRound.mean A sum l)))) l.length) := by
    rw [MCRound.std, MCRound.mean, List.length_map]
  rw [← hstdA] at hinv
  refine ⟨?_, fun x => ?_⟩
  · have h1 : 1 ≤ (1 + e) * (1 + ((1 + e) ^ (6 + 3 * d) - 1) * κ) :=
      one_le_mul_of_one_le_of_one_le (by linarith) (by linarith)
    have h2 : log (2 - (1 + e) * (1 + ((1 + e) ^ (6 + 3 * d) - 1) * κ)) ≤ 0 := log_nonpos (by linarith) (by linarith)
    unfold stdLevel
    have : 0 ≤ (3 + d : ℝ) * log (1 + e) := by positivity
    linarith
  · have := ((hdiff x).mul hinv).round he (z := standard A sum l x) (by
      rw [← div_eq_mul_inv]; exact hA.div _ _)
    rw [← div_eq_mul_inv, ← div_eq_mul_inv] at this
    refine this.mono (le_of_eq ?_)
    unfold stdLevel
    ring

/-- The average of a loop. -/
theorem average_err {sum : List ℝ → ℝ} (he1 : e ≤ 1) (k : MC.Kind) (call : Bool) {o o' : MC.Opt} {t M : ℝ} {m d d' : ℕ}
    (ht : 0 ≤ t) (hot : o.t = t) (hS : 0 ≤ o.S) (hK : 0 ≤ o.K) (hσ : 0 ≤ o.sigma) (hdt : o.dt = A.div t m)
    (ho' : o' = { o with dt := t / m }) {eps : MC.Rows} (hrow : ∀ row ∈ eps, row.length = m)
    (hM0 : 0 ≤ M) {ζ : ℝ} (hζ : 0 ≤ ζ) {f g h : ℝ → ℝ} (hf : ∀ row ∈ eps, ∀ z ∈ row, Err ζ (f z) (g z) (h z))
    (hM : ∀ row ∈ eps, (row.map fun z => stepSize t o.b o.sigma m (h z)).sum ≤ M) (hne : eps ≠ [])
    (hsum : ∀ l : List ℝ, l.length = m → Summed A d l (sum l))
    (hsum' : ∀ l : List ℝ, l.length = eps.length → Summed A d' l (sum l)) :
    Err (mcLevel k e ζ M m d + e * (|o.r| * t) + (4 + d') * log (1 + e))
      (MCRound.mean A sum (MCRound.payoff A sum k o call (eps.map fun row => row.map f)))
      (MC.mean (MC.payoff k o' call (eps.map fun row => row.map g)))
      (exp (-o.r * t) * (MC.mean ((MC.wiener o' (eps.map fun row => row.map g)).map (k.price o')) + o.K)) := by
  have hl : 0 ≤ log (1 + e) := log_nonneg (by linarith)
  have hlev : 0 ≤ mcLevel k e ζ M m d := by
    have h1 : ∀ n : ℕ, 0 ≤ (exp ζ * (1 + e) ^ (6 + n) - 1) * M := fun n =>
      mul_nonneg (sub_nonneg.2 (one_le_mul_of_one_le_of_one_le (one_le_exp hζ) (one_le_pow₀ (by linarith)))) hM0
    cases k <;> simp only [mcLevel] <;> have := h1 d <;> have := h1 m <;> positivity
  set P : List ℝ → ℝ := fun row => k.price o' (row.map fun z => (o'.b - o'.sigma ^ 2 / 2) * o'.dt + o'.sigma * √o'.dt * g z) with hP
  have h1 : ∀ row ∈ eps, Err (mcLevel k e ζ M m d + e * (|o.r| * t) + 3 * log (1 + e))
      (A.mul (A.exp (A.mul (-o.r) t)) (if call then max (A.sub (kindPrice A sum k o (row.map fun z => step A o (f z))) o.K) 0
        else max (A.sub o.K (kindPrice A sum k o (row.map fun z => step A o (f z)))) 0))
      (exp (-o.r * t) * (if call then max (P row - o.K) 0 else max (o.K - P row) 0)) (exp (-o.r * t) * (P row + o.K)) :=
    fun row hr => payoff_err hA he call ht hK hlev (kindPrice_err hA he he1 k ht hS hσ hdt ho' (hrow row hr) hζ (hf row hr) (hM row hr) hsum)
  have h2 := summed_map hA he (hsum' _ (by rw [List.length_map])) (by positivity) h1
  have h3 := mean_err hA he h2 eps.length
  have e1 : MCRound.mean A sum (MCRound.payoff A sum k o call (eps.map fun row => row.map f))
      = A.div (sum (eps.map fun row => A.mul (A.exp (A.mul (-o.r) t))
        (if call then max (A.sub (kindPrice A sum k o (row.map fun z => step A o (f z))) o.K) 0
          else max (A.sub o.K (kindPrice A sum k o (row.map fun z => step A o (f z)))) 0))) eps.length := by
    simp only [MCRound.mean, MCRound.payoff, List.map_map, List.length_map, hot, Function.comp_def]
  have e2 : MC.mean (MC.payoff k o' call (eps.map fun row => row.map g))
      = (eps.map fun row => exp (-o.r * t) * (if call then max (P row - o.K) 0 else max (o.K - P row) 0)).sum / eps.length := by
    simp only [MC.mean, MC.payoff, MC.wiener, List.map_map, List.length_map, Function.comp_def]
    subst ho'
    simp only [hot, hP]
  have hn : (eps.length : ℝ) ≠ 0 := by
    have := List.length_pos_iff.2 hne
    positivity
  have e3 : (eps.map fun row => exp (-o.r * t) * (P row + o.K)).sum / eps.length
      = exp (-o.r * t) * (MC.mean ((MC.wiener o' (eps.map fun row => row.map g)).map (k.price o')) + o.K) := by
    have h4 : (eps.map fun row => exp (-o.r * t) * (P row + o.K)).sum
        = exp (-o.r * t) * ((eps.map P).sum + eps.length * o.K) := by
      clear hrow hf hM hne hsum' h1 h2 h3 e1 e2 hn
      induction eps with
      | nil => simp
      | cons a l ih => simp only [List.map_cons, List.sum_cons, ih, List.length_cons]; push_cast; ring
    have h5 : MC.mean ((MC.wiener o' (eps.map fun row => row.map g)).map (k.price o')) = (eps.map P).sum / eps.length := by
      simp only [MC.mean, MC.wiener, List.map_map, List.length_map, Function.comp_def, hP]
    rw [h4, h5]
    field_simp
  rw [e1, e2, ← e3]
  exact h3.mono (by linarith)

end

/-- **C138.** With exact additions and exact arithmetic these are the prices of the model over the reals. -/
theorem C138_exact (loops m : ℕ) (S K t r b σ : ℝ) (anti stand trace : Bool) (k : MC.Kind) (call : Bool) (sample : ℕ → MC.Rows) :
    MCRound.new Arith.exact loops m S K t r b σ anti stand trace = MC.new loops m S K t r b σ anti stand trace ∧
    ∀ o, MC.new loops m S K t r b σ anti stand trace = .ok o →
      MCRound.price Arith.exact List.sum k o call sample = MC.price k o call sample := by
  refine ⟨rfl, fun o _ => ?_⟩
  have hc : ∀ l : List ℝ, MCRound.cumsum Arith.exact l = MC.cumsum 0 l := by
    have hf : ∀ (l : List ℝ) (a : ℝ), cumsumFrom Arith.exact a l = MC.cumsum a l := by
      intro l
      induction l with
      | nil => intro a; rfl
      | cons x l ih => intro a; simp only [cumsumFrom, MC.cumsum, ih]; rfl
    intro l
    cases l with
    | nil => rfl
    | cons x l => simp only [MCRound.cumsum, MC.cumsum, hf, zero_add]
  have hk : ∀ path, kindPrice Arith.exact List.sum k o path = k.price o path := by
    intro path
    cases k with
    | vanilla => rfl
    | asian => simp only [kindPrice, MCRound.mean, MC.Kind.price, MC.asianPrice, MC.mean, hc]; rfl
  have hpay : MCRound.payoff Arith.exact List.sum k o call = MC.payoff k o call := by
    funext eps
    simp only [MCRound.payoff, MC.payoff, MC.wiener, hk]
    rfl
  have hmean : ∀ l, MCRound.mean Arith.exact List.sum l = MC.mean l := fun _ => rfl
  have hstd : ∀ l x, standard Arith.exact List.sum l x = (x - MC.mean l) / MC.std l := by
    intro l x
    simp only [standard, MCRound.std, MC.std, hmean, sq]
    rfl
  have hprep : MCRound.prep Arith.exact List.sum o.anti o.stand = MC.prep o.anti o.stand := by
    funext eps
    simp only [MCRound.prep, MC.prep, MC.standardize, funext (hstd _)]
  rw [MCRound.price, MC.price, hpay, hprep]
  rfl

/-- Prices of `loops` loops, if the innovations of loop `i` after preparation are `f i z` and `g i z` for `z` in the sample. -/
theorem price_err {e : ℝ} {A : Arith} (hA : Rounded e A) (he : 0 ≤ e) (he1 : e ≤ 1) {sum : List ℝ → ℝ} (loops : ℕ) {m N : ℕ}
    {S K t σ M ζ : ℝ} (hm : 0 < m) (hN : 0 < N) (hS : 0 ≤ S) (hK : 0 ≤ K) (ht : 0 ≤ t) (hσ : 0 ≤ σ) (hζ : 0 ≤ ζ) (hM0 : 0 ≤ M)
    (r b : ℝ) (anti stand trace : Bool) {d d' : ℕ} (hsum : ∀ l : List ℝ, l.length = m → Summed A d l (sum l))
    (hsum' : ∀ l : List ℝ, l.length = (if anti then 2 * N else N) → Summed A d' l (sum l))
    (k : MC.Kind) (call : Bool) {sample : ℕ → MC.Rows} {f g h : ℕ → ℝ → ℝ}
    (hs : ∀ i < loops, (sample i).length = N ∧ (∀ row ∈ sample i, row.length = m) ∧
      MCRound.prep A sum anti stand (sample i) = (MC.prep anti false (sample i)).map (List.map (f i)) ∧
      MC.prep anti stand (sample i) = (MC.prep anti false (sample i)).map (List.map (g i)) ∧
      ∀ row ∈ MC.prep anti false (sample i), (∀ z ∈ row, Err ζ (f i z) (g i z) (h i z)) ∧
        (row.map fun z => stepSize t b σ m (h i z)).sum ≤ M) :
    ∃ o o' x x', MC.new loops m S K t r b σ anti stand trace = .ok o ∧ MCRound.new A loops m S K t r b σ anti stand trace = .ok o' ∧
      MC.price k o call sample = .ok x ∧ MCRound.price A sum k o' call sample = .ok x' ∧
      x.length = loops ∧ x'.length = loops ∧
      ∀ i (hi : i < x.length) (hi' : i < x'.length), |x'[i] - x[i]| ≤
        (exp (mcLevel k e ζ M m d + e * (|r| * t) + (4 + d') * log (1 + e)) - 1)
          * (exp (-r * t) * (MC.mean ((MC.wiener o (MC.prep anti stand (sample i))).map (k.price o)) + K)) := by
  have hprice := MC.sim_ok 0 (fun _ => false) MC.mean (MC.prep anti stand)
    (MC.payoff k ⟨loops, t / m, S, K, t, r, b, σ, anti, stand, trace⟩ call) loops sample (fun _ _ => rfl)
  have hprice' := MC.sim_ok 0 (fun _ => false) (MCRound.mean A sum) (MCRound.prep A sum anti stand)
    (MCRound.payoff A sum k ⟨loops, A.div t m, S, K, t, r, b, σ, anti, stand, trace⟩ call) loops sample (fun _ _ => rfl)
  refine ⟨⟨loops, t / m, S, K, t, r, b, σ, anti, stand, trace⟩, ⟨loops, A.div t m, S, K, t, r, b, σ, anti, stand, trace⟩,
    _, _, by simp [MC.new, hm.ne'], by simp [MCRound.new, hm.ne'], hprice, hprice', by simp, by simp, ?_⟩
  intro i hi hi'
  have hi0 : i < loops := by simpa using hi
  simp only [List.getElem_map, List.getElem_range]
  obtain ⟨hlen, hrows, hp', hp, hH⟩ := hs i hi0
  have hprep : MC.prep anti false (sample i) = if anti then MC.antithetic (sample i) else sample i := by simp [MC.prep]
  have hmem : ∀ row ∈ MC.prep anti false (sample i), row.length = m := by
    rw [hprep]
    intro row hrow
    cases anti
    · exact hrows row (by simpa using hrow)
    · simp only [if_true, MC.antithetic, List.mem_append, List.mem_map] at hrow
      rcases hrow with h | ⟨row, h, rfl⟩
      · exact hrows row h
      · simpa using hrows row h
  have hl' : (MC.prep anti false (sample i)).length = if anti then 2 * N else N := by
    rw [hprep]
    cases anti
    · simpa using hlen
    · simp only [if_true, MC.antithetic, List.length_append, List.length_map, hlen]; omega
  have key := average_err hA he he1 k call (o := ⟨loops, A.div t m, S, K, t, r, b, σ, anti, stand, trace⟩) ht rfl hS hK hσ rfl rfl
    hmem hM0 hζ (fun row h => (hH row h).1) (fun row h => (hH row h).2)
    (by rw [← List.length_pos_iff, hl']; split_ifs <;> omega) hsum (fun l hl => hsum' l (by rw [hl, hl']))
  rw [hp', hp]
  exact key.err

theorem stepSize_sum_nonneg {t b σ : ℝ} (ht : 0 ≤ t) (hσ : 0 ≤ σ) (m : ℕ) {h : ℝ → ℝ} (hh : ∀ z, 0 ≤ h z) (row : List ℝ) :
    0 ≤ (row.map fun z => stepSize t b σ m (h z)).sum := by
  refine List.sum_nonneg ?_
  intro w hw
  obtain ⟨v, -, rfl⟩ := List.mem_map.1 hw
  have := hh v
  unfold stepSize
  positivity

/-- **C138.** Prices of `loops` loops of `N` paths with `m` steps without standardization, in an arithmetic with relative errors
up to `e`. If sums along a path (or of the prices on it) have depth `d` and sums of payoffs depth `d'`, and the sizes of the
steps of each path add up to at most `M`, every computed average differs from the one of the real model by at most the given
factor times the discounted average price plus strike. -/
theorem C138_price {e : ℝ} {A : Arith} (hA : Rounded e A) (he : 0 ≤ e) (he1 : e ≤ 1) {sum : List ℝ → ℝ} (loops : ℕ) {m N : ℕ}
    {S K t σ M : ℝ} (hm : 0 < m) (hN : 0 < N) (hS : 0 ≤ S) (hK : 0 ≤ K) (ht : 0 ≤ t) (hσ : 0 ≤ σ) (hM0 : 0 ≤ M) (r b : ℝ)
    (anti trace : Bool) {d d' : ℕ} (hsum : ∀ l : List ℝ, l.length = m → Summed A d l (sum l))
    (hsum' : ∀ l : List ℝ, l.length = (if anti then 2 * N else N) → Summed A d' l (sum l))
    (k : MC.Kind) (call : Bool) {sample : ℕ → MC.Rows}
    (hs : ∀ i < loops, (sample i).length = N ∧
      ∀ row ∈ sample i, row.length = m ∧ (row.map fun z => stepSize t b σ m |z|).sum ≤ M) :
    ∃ o o' x x', MC.new loops m S K t r b σ anti false trace = .ok o ∧
      MCRound.new A loops m S K t r b σ anti false trace = .ok o' ∧
      MC.price k o call sample = .ok x ∧ MCRound.price A sum k o' call sample = .ok x' ∧
      x.length = loops ∧ x'.length = loops ∧
      ∀ i (hi : i < x.length) (hi' : i < x'.length), |x'[i] - x[i]| ≤
        (exp (mcLevel k e 0 M m d + e * (|r| * t) + (4 + d') * log (1 + e)) - 1)
          * (exp (-r * t) * (MC.mean ((MC.wiener o (MC.prep anti false (sample i))).map (k.price o)) + K)) := by
  refine price_err hA he he1 loops hm hN hS hK ht hσ le_rfl hM0 r b anti false trace hsum hsum' k call
    (f := fun _ z => z) (g := fun _ z => z) (h := fun _ z => |z|) (fun i hi => ?_)
  obtain ⟨hlen, hrows⟩ := hs i hi
  have hid : ∀ w : MC.Rows, w.map (List.map fun z => z) = w := fun w => by simp
  refine ⟨hlen, fun row h => (hrows row h).1, by rw [hid]; simp [MCRound.prep, MC.prep], by rw [hid], fun row hrow => ?_⟩
  refine ⟨fun z _ => Err.rfl' le_rfl, ?_⟩
  have hprep : MC.prep anti false (sample i) = if anti then MC.antithetic (sample i) else sample i := by simp [MC.prep]
  rw [hprep] at hrow
  cases anti
  · exact (hrows row (by simpa using hrow)).2
  · simp only [if_true, MC.antithetic, List.mem_append, List.mem_map] at hrow
    rcases hrow with h | ⟨row, h, rfl⟩
    · exact (hrows row h).2
    · rw [List.map_map]
      convert (hrows row h).2 using 3
      funext z
      simp

/-- **C138, standardized.** The same with `standardization=True`, if sums over all innovations of a loop have depth `d0`, these
innovations are not all equal and `κ` is at least `4 (1 + mean^2 / variance)` (so `κ = 4` will do for antithetic paths,
`C138_antithetic`). -/
theorem C138_standardized {e : ℝ} {A : Arith} (hA : Rounded e A) (he : 0 ≤ e) (he1 : e ≤ 1) {sum : List ℝ → ℝ} (loops : ℕ) {m N : ℕ}
    {S K t σ M κ : ℝ} (hm : 0 < m) (hN : 0 < N) (hS : 0 ≤ S) (hK : 0 ≤ K) (ht : 0 ≤ t) (hσ : 0 ≤ σ) (hM0 : 0 ≤ M) (r b : ℝ)
    (anti trace : Bool) {d d' d0 : ℕ} (hκ0 : 4 ≤ κ) (hlev : (1 + e) * (1 + ((1 + e) ^ (6 + 3 * d0) - 1) * κ) < 2)
    (hsum : ∀ l : List ℝ, l.length = m → Summed A d l (sum l))
    (hsum' : ∀ l : List ℝ, l.length = (if anti then 2 * N else N) → Summed A d' l (sum l))
    (hsum0 : ∀ l : List ℝ, l.length = (if anti then 2 * N else N) * m → Summed A d0 l (sum l))
    (k : MC.Kind) (call : Bool) {sample : ℕ → MC.Rows}
    (hs : ∀ i < loops, (sample i).length = N ∧ (∀ row ∈ sample i, row.length = m) ∧
      let all := (MC.prep anti false (sample i)).flatten
      0 < MC.std all ∧ 4 * (MC.std all ^ 2 + MC.mean all ^ 2) ≤ κ * MC.std all ^ 2 ∧
      ∀ row ∈ MC.prep anti false (sample i),
        (row.map fun z => stepSize t b σ m ((|z| + MC.mean (all.map abs)) / MC.std all)).sum ≤ M) :
    ∃ o o' x x', MC.new loops m S K t r b σ anti true trace = .ok o ∧
      MCRound.new A loops m S K t r b σ anti true trace = .ok o' ∧
      MC.price k o call sample = .ok x ∧ MCRound.price A sum k o' call sample = .ok x' ∧
      x.length = loops ∧ x'.length = loops ∧
      ∀ i (hi : i < x.length) (hi' : i < x'.length), |x'[i] - x[i]| ≤
        (exp (mcLevel k e (stdLevel e κ d0) M m d + e * (|r| * t) + (4 + d') * log (1 + e)) - 1)
          * (exp (-r * t) * (MC.mean ((MC.wiener o (MC.prep anti true (sample i))).map (k.price o)) + K)) := by
  have hζ : 0 ≤ stdLevel e κ d0 := by
    have hp1 : 1 ≤ (1 + e) ^ (6 + 3 * d0) := one_le_pow₀ (by linarith)
    have h1 : 1 ≤ (1 + e) * (1 + ((1 + e) ^ (6 + 3 * d0) - 1) * κ) :=
      one_le_mul_of_one_le_of_one_le (by linarith) (by nlinarith)
    have h2 : log (2 - (1 + e) * (1 + ((1 + e) ^ (6 + 3 * d0) - 1) * κ)) ≤ 0 := log_nonpos (by linarith) (by linarith)
    have h3 : 0 ≤ log (1 + e) := log_nonneg (by linarith)
    have : 0 ≤ (3 + d0 : ℝ) * log (1 + e) := by positivity
    unfold stdLevel
    linarith
  refine price_err hA he he1 loops hm hN hS hK ht hσ hζ hM0 r b anti true trace hsum hsum' k call
    (f := fun i => standard A sum (MC.prep anti false (sample i)).flatten)
    (g := fun i z => (z - MC.mean (MC.prep anti false (sample i)).flatten) / MC.std (MC.prep anti false (sample i)).flatten)
    (h := fun i z => (|z| + MC.mean ((MC.prep anti false (sample i)).flatten.map abs)) / MC.std (MC.prep anti false (sample i)).flatten)
    (fun i hi => ?_)
  obtain ⟨hlen, hrows, hstd, hκ, hM⟩ := hs i hi
  have hprep : MC.prep anti false (sample i) = if anti then MC.antithetic (sample i) else sample i := by simp [MC.prep]
  have hfl : (MC.prep anti false (sample i)).flatten.length = (if anti then 2 * N else N) * m := by
    have h1 : (sample i).flatten.length = N * m := by
      rw [List.length_flatten, ← hlen, List.map_congr_left hrows, List.map_const', List.sum_replicate, smul_eq_mul]
    rw [hprep]
    cases anti
    · simpa using h1
    · simp only [if_true, flatten_antithetic, List.length_append, List.length_map, h1]; ring
  refine ⟨hlen, hrows, by simp [MCRound.prep, MC.prep], by simp only [MC.prep]; rfl, fun row hrow => ⟨fun z _ => ?_, hM row hrow⟩⟩
  exact (standard_err hA he (fun l' hl' => hsum0 l' (by rw [hl', hfl])) hstd hκ hlev).2 z

/-- **C138.** The mean of antithetic innovations is zero, so `κ = 4` satisfies the hypothesis of `C138_standardized`. -/
theorem C138_antithetic (eps : MC.Rows) : let all := (MC.prep true false eps).flatten
    MC.mean all = 0 ∧ 4 * (MC.std all ^ 2 + MC.mean all ^ 2) ≤ 4 * MC.std all ^ 2 := by
  have hm : MC.mean (MC.prep true false eps).flatten = 0 := by
    change MC.mean (MC.antithetic eps).flatten = 0
    rw [MC.mean, flatten_antithetic, List.sum_append, sum_map_neg]; simp
  refine ⟨hm, ?_⟩
  rw [hm]
  linarith

/-- Adding the entries one by one from the left. -/
def leftSum (A : Arith) : List ℝ → ℝ
  | [] => 0
  | x :: l => l.foldl A.add x

theorem Summed.mono {A : Arith} {d d' : ℕ} {l : List ℝ} {s : ℝ} (h : Summed A d l s) (hd : d ≤ d') : Summed A d' l s := by
  induction h generalizing d' with
  | nil d => exact .nil d'
  | one d x => exact .one d' x
  | @add d l l' l'' a b h h' hp ih ih' =>
    obtain ⟨d', rfl⟩ : ∃ c, d' = c + 1 := ⟨d' - 1, by omega⟩
    exact .add (ih (by omega)) (ih' (by omega)) hp

theorem leftSum_summed (A : Arith) (l : List ℝ) : Summed A l.length l (leftSum A l) := by
  cases l with
  | nil => exact .nil 0
  | cons x l =>
    have key : ∀ (l l0 : List ℝ) (a : ℝ) (d : ℕ), Summed A d l0 a → Summed A (d + l.length) (l0 ++ l) (l.foldl A.add a) := by
      intro l
      induction l with
      | nil => intro l0 a d h; simpa using h
      | cons y l ih =>
        intro l0 a d h
        have := ih (l0 ++ [y]) (A.add a y) (d + 1) (.add h (.one d y) (List.Perm.refl _))
        rw [List.append_assoc, List.singleton_append] at this
        simpa [Nat.add_assoc, Nat.add_comm 1] using this
    have := key l [x] x 0 (.one 0 x)
    exact Summed.mono this (by simp)

theorem double_level {e M x ζ c : ℝ} (he : 0 ≤ e) (he1 : e ≤ 2⁻¹ ^ 52) (hM : 0 ≤ M) (hM1 : M ≤ 100) (hx : x ≤ 1000)
    (hζ : 0 ≤ ζ) (hζ1 : ζ ≤ c) (hc : c ≤ 1e-3) {m d d' : ℕ} (hm : m ≤ 10 ^ 6) (hd : d ≤ 10 ^ 6) (hd' : d' ≤ 10 ^ 6) (k : MC.Kind) :
    exp (mcLevel k e ζ M m d + e * x + (4 + d') * log (1 + e)) - 1 ≤ 400 * c + 9.6e-8 := by
  have hl : 0 ≤ log (1 + e) := log_nonneg (by linarith)
  have hle : log (1 + e) ≤ e := by
    have := log_le_sub_one_of_pos (show 0 < 1 + e by linarith)
    linarith
  have hcast : ∀ {n : ℕ}, n ≤ 10 ^ 6 → (n : ℝ) ≤ 10 ^ 6 := fun h => by exact_mod_cast h
  have h52 : (2⁻¹ : ℝ) ^ 52 ≤ 2.3e-16 := by norm_num
  have hpow : ∀ n : ℕ, n ≤ 10 ^ 6 → (exp ζ * (1 + e) ^ (6 + n) - 1) * M ≤ 200 * c + 4.61e-8 := by
    intro n hn
    have h1 : exp ζ * (1 + e) ^ (6 + n) = exp (ζ + (6 + n : ℕ) * log (1 + e)) := by rw [exp_add, exp_nat_log he]
    have h2 : ((6 + n : ℕ) : ℝ) * log (1 + e) ≤ (10 ^ 6 + 6) * 2.3e-16 := by
      refine mul_le_mul ?_ (hle.trans (he1.trans h52)) hl (by norm_num)
      have := hcast hn
      push_cast; linarith
    have h3 := exp_sub_one_le (show ζ + (6 + n : ℕ) * log (1 + e) ≤ 1 / 2 by norm_num at h2 hc ⊢; linarith)
    rw [abs_of_nonneg (by positivity)] at h3
    rw [h1]
    have hc0 : 0 ≤ c := hζ.trans hζ1
    have h4 : exp (ζ + (6 + n : ℕ) * log (1 + e)) - 1 ≤ 2 * (c + (10 ^ 6 + 6) * 2.3e-16) := by linarith
    calc _ ≤ 2 * (c + (10 ^ 6 + 6) * 2.3e-16) * M := mul_le_mul_of_nonneg_right h4 hM
      _ ≤ 2 * (c + (10 ^ 6 + 6) * 2.3e-16) * 100 := by gcongr
      _ ≤ _ := by norm_num; linarith
  have hlog : ∀ n : ℕ, n ≤ 10 ^ 6 → (4 + n : ℝ) * log (1 + e) ≤ 2.4e-10 := by
    intro n hn
    have : (4 + n : ℝ) * log (1 + e) ≤ (4 + 10 ^ 6) * 2.3e-16 :=
      mul_le_mul (by have := hcast hn; linarith) (hle.trans (he1.trans h52)) hl (by norm_num)
    exact this.trans (by norm_num)
  have hex : e * x ≤ 2.3e-13 := by
    have h1 : e * x ≤ e * 1000 := mul_le_mul_of_nonneg_left hx he
    linarith [he1.trans h52]
  have hlev : mcLevel k e ζ M m d ≤ 200 * c + 4.7e-8 := by
    cases k
    · have h1 := hpow d hd
      have h2 : 2 * log (1 + e) ≤ 1e-10 := by linarith [he1.trans h52]
      simp only [mcLevel]; norm_num at *; linarith
    · have h1 := hpow m hm
      have h2 := hlog d hd
      simp only [mcLevel]; norm_num at *; nlinarith
  have tot : mcLevel k e ζ M m d + e * x + (4 + d') * log (1 + e) ≤ 200 * c + 4.8e-8 := by
    have := hlog d' hd'
    norm_num at *; linarith
  have h5 : exp (mcLevel k e ζ M m d + e * x + (4 + d') * log (1 + e)) ≤ exp (200 * c + 4.8e-8) := exp_le_exp.2 tot
  have hc0 : 0 ≤ c := hζ.trans hζ1
  have h6 := exp_sub_one_le (show 200 * c + 4.8e-8 ≤ 1 / 2 by norm_num at hc ⊢; linarith)
  rw [abs_of_pos (by norm_num; positivity)] at h6
  have h7 : exp (mcLevel k e ζ M m d + e * x + (4 + d') * log (1 + e)) - 1 ≤ 2 * (200 * c + 4.8e-8) := by linarith
  refine h7.trans (le_of_eq ?_)
  ring

/-- **C138.** In double precision the factor of `C138_price` is below `1e-7` for up to a million steps, sums of depth up to a
million, `|r| t` up to `1000` and paths whose step sizes add up to at most `100`. -/
theorem C138_double {e M x : ℝ} (he : 0 ≤ e) (he1 : e ≤ 2⁻¹ ^ 52) (hM : 0 ≤ M) (hM1 : M ≤ 100) (hx : x ≤ 1000)
    {m d d' : ℕ} (hm : m ≤ 10 ^ 6) (hd : d ≤ 10 ^ 6) (hd' : d' ≤ 10 ^ 6) (k : MC.Kind) :
    exp (mcLevel k e 0 M m d + e * x + (4 + d') * log (1 + e)) - 1 ≤ 1e-7 := by
  have := double_level he he1 hM hM1 hx le_rfl (le_refl (0 : ℝ)) (by norm_num) hm hd hd' k
  norm_num at this ⊢
  linarith

/-- **C138, standardized.** In double precision, under the same conditions and if the mean of the innovations of a loop is at
most their standard deviation (`κ ≤ 8`) and sums over all innovations have depth up to a million, the hypothesis of
`C138_standardized` on the level holds and the factor is below `1e-5`. -/
theorem C138_double_standardized {e M x κ : ℝ} (he : 0 ≤ e) (he1 : e ≤ 2⁻¹ ^ 52) (hM : 0 ≤ M) (hM1 : M ≤ 100) (hx : x ≤ 1000)
    (hκ : 4 ≤ κ) (hκ8 : κ ≤ 8) {m d d' d0 : ℕ} (hm : m ≤ 10 ^ 6) (hd : d ≤ 10 ^ 6) (hd' : d' ≤ 10 ^ 6) (hd0 : d0 ≤ 10 ^ 6)
    (k : MC.Kind) :
    (1 + e) * (1 + ((1 + e) ^ (6 + 3 * d0) - 1) * κ) < 2 ∧
    exp (mcLevel k e (stdLevel e κ d0) M m d + e * x + (4 + d') * log (1 + e)) - 1 ≤ 1e-5 := by
  have hl : 0 ≤ log (1 + e) := log_nonneg (by linarith)
  have hle : log (1 + e) ≤ e := by
    have := log_le_sub_one_of_pos (show 0 < 1 + e by linarith)
    linarith
  have h52 : (2⁻¹ : ℝ) ^ 52 ≤ 2.3e-16 := by norm_num
  have he2 : e ≤ 2.3e-16 := he1.trans h52
  have hc0 : (d0 : ℝ) ≤ 10 ^ 6 := by exact_mod_cast hd0
  have hp1 : 1 ≤ (1 + e) ^ (6 + 3 * d0) := one_le_pow₀ (by linarith)
  have hp : (1 + e) ^ (6 + 3 * d0) - 1 ≤ 1.4e-9 := by
    have h2 : ((6 + 3 * d0 : ℕ) : ℝ) * log (1 + e) ≤ (3 * 10 ^ 6 + 6) * 2.3e-16 :=
      mul_le_mul (by push_cast; linarith) (hle.trans he2) hl (by norm_num)
    have h3 := exp_sub_one_le (h2.trans (by norm_num))
    rw [abs_of_nonneg (by positivity), exp_nat_log he] at h3
    have h4 : 2 * ((3 * 10 ^ 6 + 6) * 2.3e-16 : ℝ) ≤ 1.4e-9 := by norm_num
    linarith
  have hw : ((1 + e) ^ (6 + 3 * d0) - 1) * κ ≤ 1.12e-8 := by
    have : ((1 + e) ^ (6 + 3 * d0) - 1) * κ ≤ 1.4e-9 * 8 := mul_le_mul hp hκ8 (by linarith) (by norm_num)
    exact this.trans (by norm_num)
  have hw0 : 0 ≤ ((1 + e) ^ (6 + 3 * d0) - 1) * κ := mul_nonneg (by linarith) (by linarith)
  set w := ((1 + e) ^ (6 + 3 * d0) - 1) * κ
  have hv : (1 + e) * (1 + w) ≤ 1 + 1.2e-8 := by
    norm_num at he2 hw ⊢
    nlinarith
  have hv1 : 1 ≤ (1 + e) * (1 + w) := one_le_mul_of_one_le_of_one_le (by linarith) (by linarith)
  have hlev : (1 + e) * (1 + w) < 2 := by norm_num at hv; linarith
  refine ⟨hlev, ?_⟩
  have hlog : -log (2 - (1 + e) * (1 + w)) ≤ 1.3e-8 := by
    rw [← log_inv]
    have hpos : 0 < 2 - (1 + e) * (1 + w) := by linarith
    have h1 := log_le_sub_one_of_pos (inv_pos.2 hpos)
    have h2 : (2 - (1 + e) * (1 + w))⁻¹ ≤ 1 + 1.3e-8 := by
      rw [inv_le_comm₀ hpos (by norm_num)]
      norm_num at hv ⊢
      linarith
    linarith
  have hz1 : stdLevel e κ d0 ≤ 1.4e-8 := by
    have h1 : (3 + d0 : ℝ) * log (1 + e) ≤ (3 + 10 ^ 6) * 2.3e-16 :=
      mul_le_mul (by linarith) (hle.trans he2) hl (by norm_num)
    change (3 + d0 : ℝ) * log (1 + e) - log (2 - (1 + e) * (1 + w)) ≤ _
    norm_num at h1 hlog ⊢
    linarith
  have hz0 : 0 ≤ stdLevel e κ d0 := by
    have h2 : log (2 - (1 + e) * (1 + w)) ≤ 0 := log_nonpos (by linarith) (by linarith)
    have : 0 ≤ (3 + d0 : ℝ) * log (1 + e) := by positivity
    change 0 ≤ (3 + d0 : ℝ) * log (1 + e) - log (2 - (1 + e) * (1 + w))
    linarith
  have := double_level he he1 hM hM1 hx hz0 hz1 (by norm_num) hm hd hd' k
  norm_num at this ⊢
  linarith

/-- Example for C138: 50 loops of 5000 paths of 30 steps each, as in the documentation (mc_loops 50, path_length 30, S = K = 100,
t = 1/12, r = b = 0.1, sigma = 0.4), innovations all `1`, summed from the left in an arithmetic that is not exact: the
hypotheses of `C138_price` are met, with `M = 20`. -/
theorem C138_example : Rounded (2⁻¹ ^ 52) (skew (2⁻¹ ^ 52)) ∧
    ∃ x x', (∃ o, MC.new 50 30 100 100 (1 / 12) 0.1 0.1 0.4 true false false = .ok o ∧
        MC.price .vanilla o true (fun _ => List.replicate 5000 (List.replicate 30 1)) = .ok x) ∧
      (∃ o, MCRound.new (skew (2⁻¹ ^ 52)) 50 30 100 100 (1 / 12) 0.1 0.1 0.4 true false false = .ok o ∧
        MCRound.price (skew (2⁻¹ ^ 52)) (leftSum (skew (2⁻¹ ^ 52))) .vanilla o true
          (fun _ => List.replicate 5000 (List.replicate 30 1)) = .ok x') ∧
      x.length = 50 ∧ x'.length = 50 := by
  have hr := skew_rounded (e := 2⁻¹ ^ 52) (by norm_num)
  refine ⟨hr, ?_⟩
  obtain ⟨o, o', x, x', h1, h2, h3, h4, h5, h6, -⟩ := C138_price hr (by norm_num) (by norm_num) (sum := leftSum (skew (2⁻¹ ^ 52)))
    50 (m := 30) (N := 5000) (S := 100) (K := 100) (t := 1 / 12) (σ := 0.4) (M := 20) (by norm_num) (by norm_num) (by norm_num)
    (by norm_num) (by norm_num) (by norm_num) (by norm_num) 0.1 0.1 true false (d := 30) (d' := 10000)
    (fun l hl => hl ▸ leftSum_summed _ l) (fun l hl => (show l.length = 10000 from hl) ▸ leftSum_summed _ l) .vanilla true
    (sample := fun _ => List.replicate 5000 (List.replicate 30 1)) (fun i _ => by
      refine ⟨List.length_replicate, fun row hrow => ?_⟩
      obtain rfl := List.eq_of_mem_replicate hrow
      refine ⟨List.length_replicate, ?_⟩
      simp only [List.map_replicate, List.sum_replicate, stepSize, nsmul_eq_mul]
      have : √((1 / 12 : ℝ) / (30 : ℕ)) ≤ 1 := by
        exact sqrt_le_one.2 (by norm_num)
      rw [abs_one, abs_of_pos (by norm_num)]
      norm_num at this ⊢
      linarith)
  exact ⟨x, x', ⟨o, h1, h3⟩, ⟨o', h2, h4⟩, h5, h6⟩

theorem mean_const {l : List ℝ} (hl : l ≠ []) {f : ℝ → ℝ} (h : ∀ x ∈ l, f x = 1) : MC.mean (l.map f) = 1 := by
  have hn : (l.length : ℝ) ≠ 0 := by
    have := List.length_pos_iff.2 hl
    positivity
  rw [MC.mean, List.map_congr_left h, List.map_const', List.sum_replicate, List.length_replicate, nsmul_eq_mul, mul_one, div_self hn]

/-- Example for `C138_standardized`: the same with standardization, `κ = 4`, `M = 30`. -/
theorem C138_standardized_example :
    ∃ x x', (∃ o, MC.new 50 30 100 100 (1 / 12) 0.1 0.1 0.4 true true false = .ok o ∧
        MC.price .asian o true (fun _ => List.replicate 5000 (List.replicate 30 1)) = .ok x) ∧
      (∃ o, MCRound.new (skew (2⁻¹ ^ 52)) 50 30 100 100 (1 / 12) 0.1 0.1 0.4 true true false = .ok o ∧
        MCRound.price (skew (2⁻¹ ^ 52)) (leftSum (skew (2⁻¹ ^ 52))) .asian o true
          (fun _ => List.replicate 5000 (List.replicate 30 1)) = .ok x') ∧
      x.length = 50 ∧ x'.length = 50 := by
  have hr := skew_rounded (e := 2⁻¹ ^ 52) (by norm_num)
  set eps : MC.Rows := List.replicate 5000 (List.replicate 30 1) with heps
  have hlen : eps.length = 5000 := List.length_replicate
  have hrows : ∀ row ∈ eps, row = List.replicate 30 1 := fun row h => List.eq_of_mem_replicate h
  have hrow' : ∀ row ∈ MC.prep true false eps, row.length = 30 ∧ ∀ z ∈ row, |z| = 1 := by
    intro row hrow
    change row ∈ MC.antithetic eps at hrow
    simp only [MC.antithetic, List.mem_append, List.mem_map] at hrow
    rcases hrow with h | ⟨row, h, rfl⟩
    · rw [hrows row h]
      refine ⟨List.length_replicate, fun z hz => ?_⟩
      rw [List.eq_of_mem_replicate hz, abs_one]
    · rw [hrows row h]
      refine ⟨by rw [List.length_map, List.length_replicate], fun z hz => ?_⟩
      obtain ⟨w, hw, rfl⟩ := List.mem_map.1 hz
      rw [List.eq_of_mem_replicate hw, abs_neg, abs_one]
  have hall : ∀ z ∈ (MC.prep true false eps).flatten, |z| = 1 := by
    intro z hz
    obtain ⟨row, hrow, hz⟩ := List.mem_flatten.1 hz
    exact (hrow' row hrow).2 z hz
  have hne : (MC.prep true false eps).flatten ≠ [] := by
    have h1 : (List.replicate 30 1 : List ℝ) ∈ MC.prep true false eps := by
      change _ ∈ MC.antithetic eps
      exact List.mem_append_left _ (List.mem_replicate.2 ⟨by norm_num, rfl⟩)
    have h2 : (1 : ℝ) ∈ (MC.prep true false eps).flatten :=
      List.mem_flatten.2 ⟨_, h1, List.mem_replicate.2 ⟨by norm_num, rfl⟩⟩
    exact List.ne_nil_of_mem h2
  obtain ⟨hmean, hκ⟩ := C138_antithetic eps
  have hstd : MC.std (MC.prep true false eps).flatten = 1 := by
    rw [MC.std, hmean, mean_const hne (fun x hx => by rw [sub_zero, ← sq_abs, hall x hx, one_pow]), sqrt_one]
  have habs : MC.mean ((MC.prep true false eps).flatten.map abs) = 1 := mean_const hne hall
  obtain ⟨o, o', x, x', h1, h2, h3, h4, h5, h6, -⟩ := C138_standardized hr (by norm_num) (by norm_num)
    (sum := leftSum (skew (2⁻¹ ^ 52))) 50 (m := 30) (N := 5000) (S := 100) (K := 100) (t := 1 / 12) (σ := 0.4) (M := 30) (κ := 4)
    (by norm_num) (by norm_num) (by norm_num) (by norm_num) (by norm_num) (by norm_num) (by norm_num) 0.1 0.1 true false
    (d := 30) (d' := 10000) (d0 := 300000) le_rfl
    (C138_double_standardized (M := 0) (x := 0) (m := 0) (d := 0) (d' := 0) (by norm_num) le_rfl le_rfl (by norm_num)
      (by norm_num) le_rfl (by norm_num) (by norm_num) (by norm_num) (by norm_num) (by norm_num) .asian).1
    (fun l hl => hl ▸ leftSum_summed _ l) (fun l hl => (show l.length = 10000 from hl) ▸ leftSum_summed _ l)
    (fun l hl => (show l.length = 300000 from hl) ▸ leftSum_summed _ l) .asian true
    (sample := fun _ => eps) (fun i _ => by
      refine ⟨hlen, fun row h => by rw [hrows row h, List.length_replicate], ?_⟩
      refine ⟨by rw [hstd]; norm_num, hκ, fun row hrow => ?_⟩
      rw [hstd, habs]
      rw [List.map_congr_left (g := fun _ => stepSize (1 / 12) 0.1 0.4 30 2) (fun z hz => by
          rw [(hrow' row hrow).2 z hz]; norm_num),
        List.map_const', List.sum_replicate, (hrow' row hrow).1, stepSize, nsmul_eq_mul]
      have : √((1 / 12 : ℝ) / (30 : ℕ)) ≤ 1 := sqrt_le_one.2 (by norm_num)
      rw [abs_of_pos (by norm_num)]
      norm_num at this ⊢
      linarith)
  exact ⟨x, x', ⟨o, h1, h3⟩, ⟨o', h2, h4⟩, h5, h6⟩

end Verif.Props
