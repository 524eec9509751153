import Verif.Model.Edge
import Verif.Lemmas.Fl
import Verif.Lemmas.Rounding
import Verif.Props.Tree
import Verif.Props.Expiry

/-!
C104 — the tree options at expiry (`t = 0`) and without volatility (`sigma = 0`), computing with `nan` and infinities as
`numpy` does.
-/
namespace Verif.Props
open Real Verif.Spec Py _root_.Verif.Tree
open Fl (num)

/-! ### The loops on floats -/

/-- Backward recursion on floats, indexed by level and position. -/
noncomputable def edgeV (g : ℕ → ℕ → Fl → Fl → Fl) (f : ℕ → Fl) (n j k : ℕ) : Fl :=
  if j < n then g j k (edgeV g f n (j + 1) (k + 1)) (edgeV g f n (j + 1) k) else f k
termination_by n - j

theorem edgeV_last (g : ℕ → ℕ → Fl → Fl → Fl) (f : ℕ → Fl) (n k : ℕ) : edgeV g f n n k = f k := by
  rw [edgeV, if_neg (lt_irrefl _)]

theorem edgeV_back (g : ℕ → ℕ → Fl → Fl → Fl) (f : ℕ → Fl) {n j : ℕ} (h : j < n) (k : ℕ) :
    edgeV g f n j k = g j k (edgeV g f n (j + 1) (k + 1)) (edgeV g f n (j + 1) k) := by
  rw [edgeV, if_pos h]

/-- One step of the European or American rollback. -/
noncomputable def edgeStep (am : Bool) (S K u d p Df z : Fl) (j i : ℕ) (hi lo : Fl) : Fl :=
  if am then Fl.pyMax (TreeEdge.exercise S K u d z i (j - i)) (TreeEdge.cont Df p hi lo) else TreeEdge.cont Df p hi lo

/-- Terminal value. -/
noncomputable def edgeTerm (S K u d z : Fl) (n i : ℕ) : Fl :=
  (Fl.abs (TreeEdge.exercise S K u d z i (n - i)) + TreeEdge.exercise S K u d z i (n - i)) / 2

theorem foldlM_congr_mem {α β : Type} {f g : β → α → Except PyErr β} {l : List α} (b : β)
    (h : ∀ b, ∀ a ∈ l, f b a = g b a) : l.foldlM f b = l.foldlM g b := by
  induction l generalizing b with
  | nil => rfl
  | cons a l ih =>
    rw [List.foldlM_cons, List.foldlM_cons, h b a (by simp)]
    congr 1
    funext x
    exact ih x fun b a ha => h b a (by simp [ha])

theorem edge_calcPrice (am : Bool) (S K u d p Df z : Fl) (n : ℕ) :
    TreeEdge.calcPrice S K u d p Df z n (if am then "american" else "european")
      = .ok (edgeV (edgeStep am S K u d p Df z) (edgeTerm S K u d z n) n 0 0) := by
  obtain ⟨ov, h1, h2⟩ := rollback_val (R := Fl)
    (fun j i l => do
      let hi ← getI l (i + 1)
      let lo ← getI l i
      return edgeStep am S K u d p Df z j i hi lo)
    (fun j => j + 1) (edgeV (edgeStep am S K u d p Df z) (edgeTerm S K u d z n) n) (n + 1) n
    (TreeEdge.terminal S K u d z n) (by simp [TreeEdge.terminal]) (by intros; omega)
    (fun k hk => by simp [TreeEdge.terminal, edgeV_last, edgeTerm, hk])
    (by
      intro q hq i hi l hl hk
      rw [getI_ok (hk (i + 1) (by omega) (by omega)), getI_ok (hk i (by omega) (by omega))]
      simp only [bind, Except.bind, pure, Except.pure]
      rw [edgeV_back _ _ hq])
  have h3 := h2 0 (by omega)
  cases am
  · simp only [TreeEdge.calcPrice, Bool.false_eq_true, if_false, if_true]
    have : TreeEdge.euro (TreeEdge.terminal S K u d z n) n Df p = .ok ov := by
      rw [← h1, TreeEdge.euro]
      simp only [bind_assoc, pure_bind, edgeStep, Bool.false_eq_true, if_false]
    simp only [this, bind, Except.bind, getI_ok h3]
  · simp only [TreeEdge.calcPrice, if_true, show ("american" = "european") = False by decide, if_false]
    have : TreeEdge.amer (TreeEdge.terminal S K u d z n) n Df p K d S u z = .ok ov := by
      rw [← h1, TreeEdge.amer]
      congr 1
      funext ov j
      refine foldlM_congr_mem _ fun l i hi => ?_
      have hi' : i ≤ j := by have := List.mem_range.1 hi; omega
      simp only [bind_assoc, pure_bind, edgeStep, if_true, absDiff_le hi']
    simp only [this, bind, Except.bind, getI_ok h3]

theorem pyMax_num (x y : ℝ) : Fl.pyMax (num x) (num y) = num (max x y) := by
  unfold Fl.pyMax
  simp only [Fl.lt_num]
  split_ifs with h
  · rw [max_eq_right h.le]
  · rw [max_eq_left (not_lt.1 h)]

theorem pyMax_nan (x : ℝ) : Fl.pyMax (num x) .nan = num x := by
  rw [Fl.pyMax, if_neg (Fl.not_lt_nan _)]

theorem exercise_num (S K u d z : ℝ) (i j : ℕ) :
    TreeEdge.exercise (num S) (num K) (num u) (num d) (num z) i j = num (z * (S * u ^ i * d ^ j - K)) := by
  simp only [TreeEdge.exercise, Fl.num_pow, Fl.num_mul, Fl.num_sub]

theorem cont_num (Df p hi lo : ℝ) :
    TreeEdge.cont (num Df) (num p) (num hi) (num lo) = num ((p * hi + (1 - p) * lo) * Df) := by
  simp only [TreeEdge.cont, Fl.one_eq, Fl.num_mul, Fl.num_sub, Fl.num_add]

theorem term_num (isCall : Bool) (S K u d : ℝ) (n i : ℕ) :
    edgeTerm (num S) (num K) (num u) (num d) (num (zOf isCall)) n i = num (payoff isCall (Spec.node S u d n i) K) := by
  simp only [edgeTerm, exercise_num, Fl.num_abs, Fl.num_add, Fl.two_eq, Fl.num_div _ (two_ne_zero : (2 : ℝ) ≠ 0),
    absmax, payoff_eq, Spec.node, z_intrinsic]

/-- With factors that are numbers the loops compute the exact lattice value. -/
theorem edgeV_num {am isCall : Bool} {S K u d p Df : ℝ} {n : ℕ} {V : ℕ → ℕ → ℝ}
    (hV : if am then IsAmerican isCall S K u d p Df n V else IsEuropean isCall S K u d p Df n V) :
    ∀ j ≤ n, ∀ k ≤ j, edgeV (edgeStep am (num S) (num K) (num u) (num d) (num p) (num Df) (num (zOf isCall)))
      (edgeTerm (num S) (num K) (num u) (num d) (num (zOf isCall)) n) n j k = num (V j k) := by
  refine level_induction ?_ ?_
  · intro k hk
    rw [edgeV_last, term_num]
    cases am
    · exact congrArg num (hV.terminal k hk).symm
    · exact congrArg num (hV.terminal k hk).symm
  · intro j hj ih k hk
    rw [edgeV_back _ _ hj, ih (k + 1) (by omega), ih k (by omega)]
    cases am
    · simp only [edgeStep, Bool.false_eq_true, if_false, cont_num]
      rw [IsEuropean.back hV j hj k hk]
      congr 1; ring
    · simp only [edgeStep, if_true, cont_num, exercise_num, pyMax_num]
      rw [IsAmerican.back hV j hj k hk, z_intrinsic, Spec.node]
      congr 2; ring

/-! ### In range -/

/-- The options for which the factors of the tree are numbers. -/
def EdgeOK (c : Cls) (o : Opt) : Prop := 0 < o.n ∧ 0 ≤ o.t ∧ (c = .jr ∨ 0 < o.t ∧ 0 < o.sigma)

theorem edge_factors {c : Cls} {o : Opt} (h : EdgeOK c o) :
    TreeEdge.factors c (num o.t) (num o.r) (num o.b) (num o.sigma) o.n
      = ⟨num (factors c o).u, num (factors c o).d, num (factors c o).p, num (factors c o).Df⟩ := by
  obtain ⟨hn, ht, h⟩ := h
  have hn' : (o.n : ℝ) ≠ 0 := by positivity
  have hdt : 0 ≤ o.t / o.n := by positivity
  cases c with
  | crr =>
    obtain ⟨ht, hσ⟩ := h.resolve_left (by simp)
    have hu : 1 < exp (o.sigma * √(o.t / o.n)) := one_lt_exp_iff.2 (by positivity)
    have hd : exp (o.sigma * √(o.t / o.n)) - 1 / exp (o.sigma * √(o.t / o.n)) ≠ 0 := by
      have : 1 / exp (o.sigma * √(o.t / o.n)) < 1 := (div_lt_one (exp_pos _)).2 hu
      linarith
    simp only [TreeEdge.factors, factors, Fl.num_div _ hn', Fl.num_sqrt hdt, Fl.num_mul, Fl.num_exp, Fl.one_eq, Fl.num_neg,
      Fl.num_div _ (exp_pos _).ne', Fl.num_sub, Fl.num_div _ hd]
  | jr =>
    simp only [TreeEdge.factors, factors, Fl.num_div _ hn', Fl.num_sqrt hdt, Fl.num_mul, Fl.num_exp, Fl.one_eq, Fl.num_neg,
      Fl.two_eq, Fl.num_div _ (two_ne_zero : (2 : ℝ) ≠ 0), Fl.num_sub, Fl.num_add, Fl.num_pow]
  | tian =>
    obtain ⟨ht, hσ⟩ := h.resolve_left (by simp)
    have hV : 1 < exp (o.sigma ^ 2 * (o.t / o.n)) := one_lt_exp_iff.2 (by positivity)
    have hM := exp_pos (o.b * (o.t / o.n))
    simp only [TreeEdge.factors, factors, Fl.num_div _ hn', Fl.num_mul, Fl.num_exp, Fl.one_eq, Fl.num_neg,
      Fl.two_eq, Fl.num_div _ (two_ne_zero : (2 : ℝ) ≠ 0), Fl.num_sub, Fl.num_add, Fl.num_pow,
      show (3 : Fl) = num 3 from rfl]
    generalize exp (o.sigma ^ 2 * (o.t / o.n)) = V at *
    generalize exp (o.b * (o.t / o.n)) = M at *
    have hq : 0 < V * V + 2 * V - 3 := by nlinarith
    have hd : M * V / 2 * (V + 1 + √(V * V + 2 * V - 3)) - M * V / 2 * (V + 1 - √(V * V + 2 * V - 3)) ≠ 0 := by
      have : 0 < M * V * √(V * V + 2 * V - 3) := by
        have := sqrt_pos.2 hq
        have : 0 < V := by linarith
        positivity
      intro h
      linarith
    simp only [Fl.num_sqrt hq.le, Fl.num_add, Fl.num_sub, Fl.num_mul, Fl.num_div _ hd]

/-- Inside the usual range nothing changes: the price is the one of `Model/Tree`. -/
theorem C104_in_range {c : Cls} {o : Opt} (h : EdgeOK c o) (am isCall : Bool)
    (hty : o.type = if am then "american" else "european") :
    TreeEdge.price c o isCall = (price c o isCall).map num := by
  obtain ⟨V, hV⟩ : ∃ V, if am then
      IsAmerican isCall o.S o.K (factors c o).u (factors c o).d (factors c o).p (factors c o).Df o.n V
      else IsEuropean isCall o.S o.K (factors c o).u (factors c o).d (factors c o).p (factors c o).Df o.n V := by
    cases am
    · exact exists_european ..
    · exact exists_american ..
  have hn := h.1.ne'
  have h1 : price c o isCall = .ok (V 0 0) := by
    rw [price, if_neg hn]
    cases am
    · simp only [Bool.false_eq_true, if_false] at hV hty
      simp only [hty]
      exact (roll_euro hV).calcPrice
    · simp only [if_true] at hV hty
      simp only [hty]
      exact (roll_amer hV).calcPrice
  rw [h1, TreeEdge.price, if_neg hn, edge_factors h]
  simp only [hty]
  rw [edge_calcPrice am, edgeV_num hV 0 (Nat.zero_le _) 0 le_rfl]
  rfl

/-! ### No randomness -/

/-- The factor of a class that divides by `u - d`. -/
theorem edge_p {c : Cls} {o : Opt} (hc : c ≠ .jr) (hn : 0 < o.n) (ht : c = .crr → 0 ≤ o.t) (hd : o.t = 0 ∨ o.sigma = 0) :
    ∃ u p x : ℝ, TreeEdge.factors c (num o.t) (num o.r) (num o.b) (num o.sigma) o.n
      = ⟨num u, num u, Fl.signed x, num (exp (-o.r * (o.t / o.n)))⟩ ∧ (x = 0 ∨ u = 1) ∧ p = x := by
  have hn' : (o.n : ℝ) ≠ 0 := by positivity
  have hdt : c = .crr → 0 ≤ o.t / o.n := fun h => div_nonneg (ht h) (Nat.cast_nonneg _)
  have hs : o.sigma * √(o.t / o.n) = 0 := by rcases hd with h | h <;> simp [h]
  have hs2 : o.sigma ^ 2 * (o.t / o.n) = 0 := by rcases hd with h | h <;> simp [h]
  have hdiv : ∀ x, num x / num 0 = Fl.signed x := by
    intro x
    show Fl.mul (num x) (Fl.inv (num 0)) = _
    rw [Fl.inv, if_pos rfl, Fl.mul]
  cases c with
  | jr => exact absurd rfl hc
  | crr =>
    refine ⟨1, _, exp (o.b * (o.t / o.n)) - 1, ?_, .inr rfl, rfl⟩
    simp only [TreeEdge.factors, Fl.num_div _ hn', Fl.num_sqrt (hdt rfl), Fl.num_mul, Fl.num_exp, Fl.one_eq, Fl.num_neg, hs, exp_zero,
      Fl.num_div _ (one_ne_zero : (1 : ℝ) ≠ 0), Fl.num_sub, div_one, sub_self, hdiv]
  | tian =>
    refine ⟨exp (o.b * (o.t / o.n)), _, 0, ?_, .inl rfl, rfl⟩
    simp only [TreeEdge.factors, Fl.num_div _ hn', Fl.num_mul, Fl.num_exp, Fl.one_eq, Fl.num_neg, hs2, exp_zero,
      Fl.two_eq, Fl.num_div _ (two_ne_zero : (2 : ℝ) ≠ 0), Fl.num_sub, Fl.num_add, Fl.num_pow,
      show (3 : Fl) = num 3 from rfl]
    rw [show (1 : ℝ) * 1 + 2 * 1 - 3 = 0 by norm_num, Fl.num_sqrt le_rfl, sqrt_zero]
    simp only [Fl.num_add, Fl.num_sub, Fl.num_mul, add_zero, sub_zero, sub_self, hdiv, mul_one]
    rw [show exp (o.b * (o.t / o.n)) / 2 * (1 + 1) = exp (o.b * (o.t / o.n)) by ring, sub_self]

theorem cont_signed (Df : Fl) (x v : ℝ) : TreeEdge.cont Df (Fl.signed x) (num v) (num v) = .nan := by
  have h : Fl.signed x * num v + (1 - Fl.signed x) * num v = .nan := by
    unfold Fl.signed
    rw [Fl.one_eq]
    rcases lt_trichotomy x 0 with h | h | h
    · rw [if_neg (by linarith), if_pos h]
      show Fl.add (Fl.mul .ninf (num v)) (Fl.mul .pinf (num v)) = _
      simp only [Fl.mul, Fl.signed]
      rcases lt_trichotomy v 0 with h | h | h
      · rw [if_pos (by linarith), if_neg (by linarith), if_pos h]; rfl
      · rw [h]; simp; rfl
      · rw [if_neg (by linarith), if_pos (by linarith), if_pos h]; rfl
    · rw [if_neg (by linarith), if_neg (by linarith), Fl.nan_mul, Fl.nan_add]
    · rw [if_pos h]
      show Fl.add (Fl.mul .pinf (num v)) (Fl.mul .ninf (num v)) = _
      simp only [Fl.mul, Fl.signed]
      rcases lt_trichotomy v 0 with h | h | h
      · rw [if_neg (by linarith), if_pos h, if_pos (by linarith)]; rfl
      · rw [h]; simp; rfl
      · rw [if_pos h, if_neg (by linarith), if_pos (by linarith)]; rfl
  rw [TreeEdge.cont, h, Fl.nan_mul]

theorem cont_p_nan (Df hi lo : Fl) : TreeEdge.cont Df .nan hi lo = .nan := by
  rw [TreeEdge.cont, Fl.nan_mul, Fl.nan_add, Fl.nan_mul]

theorem cont_lo_nan (Df p hi : Fl) : TreeEdge.cont Df p hi .nan = .nan := by
  rw [TreeEdge.cont, Fl.mul_nan, Fl.add_nan, Fl.nan_mul]

theorem signed_zero : Fl.signed 0 = .nan := by rw [Fl.signed, if_neg (lt_irrefl _), if_neg (lt_irrefl _)]

/-- Below the last level the European values are `nan`. -/
theorem edgeV_euro_nan {S K u x Df z : ℝ} {n : ℕ} (h : x = 0 ∨ u = 1) (j : ℕ) (hj : j < n) (k : ℕ) :
    edgeV (edgeStep false (num S) (num K) (num u) (num u) (Fl.signed x) (num Df) (num z))
      (edgeTerm (num S) (num K) (num u) (num u) (num z) n) n j k = .nan := by
  rw [edgeV_back _ _ hj]
  simp only [edgeStep, Bool.false_eq_true, if_false]
  rcases h with rfl | rfl
  · rw [signed_zero, cont_p_nan]
  · rcases Nat.lt_or_ge (j + 1) n with h | h
    · rw [edgeV_euro_nan (.inr rfl) (j + 1) h k, cont_lo_nan]
    · have : j + 1 = n := by omega
      subst this
      simp only [edgeV_last, edgeTerm, exercise_num, one_pow, Fl.num_abs, Fl.num_add, Fl.two_eq,
        Fl.num_div _ (two_ne_zero : (2 : ℝ) ≠ 0), cont_signed]
termination_by n - j

/-- Below the last level the American values are the exercise values, also when these are negative. -/
theorem edgeV_amer_nan {S K u x Df z : ℝ} {n : ℕ} (h : x = 0 ∨ u = 1) (j : ℕ) (hj : j < n) (k : ℕ) :
    edgeV (edgeStep true (num S) (num K) (num u) (num u) (Fl.signed x) (num Df) (num z))
      (edgeTerm (num S) (num K) (num u) (num u) (num z) n) n j k = num (z * (S * u ^ k * u ^ (j - k) - K)) := by
  have key : TreeEdge.cont (num Df) (Fl.signed x)
      (edgeV (edgeStep true (num S) (num K) (num u) (num u) (Fl.signed x) (num Df) (num z))
        (edgeTerm (num S) (num K) (num u) (num u) (num z) n) n (j + 1) (k + 1))
      (edgeV (edgeStep true (num S) (num K) (num u) (num u) (Fl.signed x) (num Df) (num z))
        (edgeTerm (num S) (num K) (num u) (num u) (num z) n) n (j + 1) k) = .nan := by
    rcases h with rfl | rfl
    · rw [signed_zero, cont_p_nan]
    · rcases Nat.lt_or_ge (j + 1) n with h | h
      · rw [edgeV_amer_nan (.inr rfl) (j + 1) h k, edgeV_amer_nan (.inr rfl) (j + 1) h (k + 1)]
        simp only [one_pow, cont_signed]
      · have : j + 1 = n := by omega
        subst this
        simp only [edgeV_last, edgeTerm, exercise_num, one_pow, Fl.num_abs, Fl.num_add, Fl.two_eq,
          Fl.num_div _ (two_ne_zero : (2 : ℝ) ≠ 0), cont_signed]
  rw [edgeV_back _ _ hj]
  simp only [edgeStep, if_true, key, exercise_num, pyMax_nan]
termination_by n - j

/-- **C104, refuted for European options.** At expiry, and without volatility, the European prices of the
Cox–Ross–Rubinstein and Tian trees are `nan` for every spot and every number of steps. -/
theorem C104_european_fails {c : Cls} {o : Opt} (hc : c ≠ .jr) (hn : 0 < o.n) (ht : 0 ≤ o.t) (hd : o.t = 0 ∨ o.sigma = 0)
    (hty : o.type = "european") (isCall : Bool) : TreeEdge.price c o isCall = .ok .nan := by
  obtain ⟨u, p, x, hf, hx, -⟩ := edge_p hc hn (fun _ => ht) hd
  rw [TreeEdge.price, if_neg hn.ne', hf, hty]
  have := edge_calcPrice false (num o.S) (num o.K) (num u) (num u) (Fl.signed x) (num (exp (-o.r * (o.t / o.n))))
    (num (zOf isCall)) o.n
  simp only [Bool.false_eq_true, if_false] at this
  rw [this, edgeV_euro_nan hx 0 hn 0]

/-- **C104, refuted for American options.** At expiry, and without volatility, the American prices of these trees are the
exercise value `S - K` or `K - S`, without a floor at zero: an option that is out of the money has a negative price. -/
theorem C104_american_fails {c : Cls} {o : Opt} (hc : c ≠ .jr) (hn : 0 < o.n) (ht : 0 ≤ o.t) (hd : o.t = 0 ∨ o.sigma = 0)
    (hty : o.type = "american") (isCall : Bool) :
    TreeEdge.price c o isCall = .ok (num (if isCall then o.S - o.K else o.K - o.S)) := by
  obtain ⟨u, p, x, hf, hx, -⟩ := edge_p hc hn (fun _ => ht) hd
  rw [TreeEdge.price, if_neg hn.ne', hf, hty]
  have := edge_calcPrice true (num o.S) (num o.K) (num u) (num u) (Fl.signed x) (num (exp (-o.r * (o.t / o.n))))
    (num (zOf isCall)) o.n
  simp only [if_true] at this
  rw [this, edgeV_amer_nan hx 0 hn 0]
  cases isCall <;> simp [zOf]

/-- **C104, Jarrow–Rudd, European.** The tree with equal probabilities gives the exact value, the discounted payoff of the
forward, at expiry and without volatility. -/
theorem C104_jr_partial {o : Opt} (hn : 0 < o.n) (ht : 0 ≤ o.t) (hd : o.t = 0 ∨ o.sigma = 0)
    (hty : o.type = "european") (isCall : Bool) :
    TreeEdge.price .jr o isCall = .ok (num (bsPrice isCall o.S o.K o.t o.r o.b o.sigma)) := by
  rw [C104_in_range ⟨hn, ht, .inl rfl⟩ false isCall (by simpa using hty)]
  obtain ⟨S, K, t, r, b, σ, type, n⟩ := o
  simp only at hn ht hd hty
  subst hty
  rw [C18_jr S K t r b σ n hn isCall _ _ _ rfl rfl rfl]
  have hn' : (n : ℝ) ≠ 0 := by positivity
  have hs : σ * √(t / n) = 0 := by rcases hd with h | h <;> simp [h]
  have hs2 : (b - σ ^ 2 / 2) * (t / n) = b * (t / n) := by rcases hd with h | h <;> simp [h]
  have e : ∀ k ∈ Finset.range (n + 1), (n.choose k : ℝ) * (1 / 2) ^ k * (1 / 2) ^ (n - k)
      * payoff isCall (S * exp (b * (t / n)) ^ k * exp (b * (t / n)) ^ (n - k)) K
      = (1 / 2) ^ k * (1 / 2) ^ (n - k) * (n.choose k : ℝ) * payoff isCall (S * exp (b * t)) K := by
    intro k hk
    have hk' : k ≤ n := by have := Finset.mem_range.1 hk; omega
    rw [mul_assoc S, ← pow_add, Nat.add_sub_cancel' hk', ← exp_nat_mul, show (n : ℝ) * (b * (t / n)) = b * t by field_simp]
    ring
  simp only [hs, hs2, add_zero, sub_zero]
  rw [Finset.sum_congr rfl e, ← Finset.sum_mul, ← add_pow, bsPrice_degenerate isCall hd, ← exp_nat_mul,
    show (n : ℝ) * (-r * (t / n)) = -r * t by field_simp]
  norm_num
  cases isCall <;> simp [payoff, Except.map]

/-- **C104, Jarrow–Rudd, American.** At expiry the price is the payoff. -/
theorem C104_jr_american_partial {o : Opt} (hn : 0 < o.n) (ht : o.t = 0) (hty : o.type = "american") (isCall : Bool) :
    TreeEdge.price .jr o isCall = .ok (num (payoff isCall o.S o.K)) := by
  rw [C104_in_range ⟨hn, ht.ge, .inl rfl⟩ true isCall (by simpa using hty), price, if_neg hn.ne']
  have hV : IsAmerican isCall o.S o.K (factors .jr o).u (factors .jr o).d (factors .jr o).p (factors .jr o).Df o.n
      fun _ _ => payoff isCall o.S o.K := by
    have h1 : (factors .jr o).u = 1 := by simp [factors, ht]
    have h2 : (factors .jr o).d = 1 := by simp [factors, ht]
    have h3 : (factors .jr o).Df = 1 := by simp [factors, ht]
    have hnode : ∀ j k, Spec.node o.S 1 1 j k = o.S := by simp [Spec.node]
    refine ⟨fun k _ => by rw [h1, h2, hnode], fun j _ k _ => ?_⟩
    rw [h1, h2, h3, hnode, payoff_eq]
    set w := intrinsic isCall o.S o.K
    have : (1 : ℝ) * ((factors .jr o).p * max w 0 + (1 - (factors .jr o).p) * max w 0) = max w 0 := by ring
    rw [this, max_eq_right (le_max_left _ _)]
  simp only [hty]
  rw [(roll_amer hV).calcPrice]
  rfl

/-! ### Negative maturities -/

theorem exercise_nan {S K z : ℝ} {i j : ℕ} (h : i + j ≠ 0) :
    TreeEdge.exercise (num S) (num K) .nan .nan (num z) i j = .nan := by
  unfold TreeEdge.exercise
  rcases i with _ | i
  · obtain ⟨j, rfl⟩ := Nat.exists_eq_succ_of_ne_zero (by simpa using h)
    simp only [Fl.nan_pow, Fl.mul_nan, Fl.nan_sub]
  · simp only [Fl.nan_pow, Fl.mul_nan, Fl.nan_mul, Fl.nan_sub]

theorem nan_max (x : Fl) : Fl.pyMax .nan x = .nan := by rw [Fl.pyMax, if_neg (Fl.not_nan_lt _)]

theorem edgeTerm_nan {S K z : ℝ} {n i : ℕ} (hn : 0 < n) (hi : i ≤ n) :
    edgeTerm (num S) (num K) .nan .nan (num z) n i = .nan := by
  rw [edgeTerm, exercise_nan (by omega), Fl.abs_nan, Fl.nan_add, Fl.nan_div]

theorem edgeV_neg_euro {S K z : ℝ} {p Df : Fl} {n : ℕ} (hn : 0 < n) (j : ℕ) (hj : j ≤ n) (k : ℕ) (hk : k ≤ j) :
    edgeV (edgeStep false (num S) (num K) .nan .nan p Df (num z))
      (edgeTerm (num S) (num K) .nan .nan (num z) n) n j k = .nan := by
  revert k
  revert j
  refine level_induction ?_ ?_
  · intro k hk
    rw [edgeV_last, edgeTerm_nan hn hk]
  · intro j hj ih k hk
    rw [edgeV_back _ _ hj, ih k (by omega), edgeStep, if_neg (by simp), cont_lo_nan]

theorem edgeV_neg_amer {S K z : ℝ} {p Df : Fl} {n : ℕ} (hn : 0 < n) :
    edgeV (edgeStep true (num S) (num K) .nan .nan p Df (num z))
      (edgeTerm (num S) (num K) .nan .nan (num z) n) n 0 0 = num (z * (S - K)) := by
  have h1 : edgeV (edgeStep true (num S) (num K) .nan .nan p Df (num z))
      (edgeTerm (num S) (num K) .nan .nan (num z) n) n 1 0 = .nan := by
    rcases Nat.lt_or_ge 1 n with h | h
    · rw [edgeV_back _ _ h, edgeStep, if_pos rfl, exercise_nan (by omega), nan_max]
    · obtain rfl : n = 1 := by omega
      rw [edgeV_last, edgeTerm_nan hn (by omega)]
  have h2 : TreeEdge.exercise (num S) (num K) .nan .nan (num z) 0 0 = num (z * (S - K)) := by
    have h : (Fl.nan ^ 0 : Fl) = num 1 := Fl.one_eq
    simp only [TreeEdge.exercise, h, Fl.num_mul, Fl.num_sub, mul_one]
  rw [edgeV_back _ _ hn, edgeStep, if_pos rfl, Nat.zero_add, h1, cont_lo_nan, Nat.sub_zero, h2, pyMax_nan]

theorem edge_factors_neg {c : Cls} {o : Opt} (hn : 0 < o.n) (ht : o.t < 0) (hs : c = .tian → o.sigma ≠ 0) :
    ∃ p Df, TreeEdge.factors c (num o.t) (num o.r) (num o.b) (num o.sigma) o.n = ⟨.nan, .nan, p, Df⟩ := by
  have hn' : (o.n : ℝ) ≠ 0 := by positivity
  have hdt : o.t / o.n < 0 := div_neg_of_neg_of_pos ht (by positivity)
  cases c with
  | crr =>
    simp only [TreeEdge.factors, Fl.num_div _ hn', Fl.sqrt_neg hdt, Fl.mul_nan, Fl.exp_nan, Fl.div_nan]
    exact ⟨_, _, rfl⟩
  | jr =>
    simp only [TreeEdge.factors, Fl.num_div _ hn', Fl.sqrt_neg hdt, Fl.mul_nan, Fl.add_nan, Fl.sub_nan, Fl.exp_nan]
    exact ⟨_, _, rfl⟩
  | tian =>
    have hV : exp (o.sigma ^ 2 * (o.t / o.n)) < 1 :=
      exp_lt_one_iff.2 (mul_neg_of_pos_of_neg ((sq_pos_of_ne_zero (hs rfl))) hdt)
    have hV0 := exp_pos (o.sigma ^ 2 * (o.t / o.n))
    simp only [TreeEdge.factors, Fl.num_div _ hn', Fl.num_mul, Fl.num_exp, Fl.one_eq, Fl.num_neg,
      Fl.two_eq, Fl.num_div _ (two_ne_zero : (2 : ℝ) ≠ 0), Fl.num_sub, Fl.num_add, Fl.num_pow,
      show (3 : Fl) = num 3 from rfl]
    generalize exp (o.sigma ^ 2 * (o.t / o.n)) = V at *
    have hq : V * V + 2 * V - 3 < 0 := by nlinarith
    simp only [Fl.sqrt_neg hq, Fl.add_nan, Fl.sub_nan, Fl.mul_nan]
    exact ⟨_, _, rfl⟩

/-- **C104, negative maturities.** They are not refused. European prices are `nan`; American prices are the exercise
value, which can be negative. -/
theorem C104_expired {c : Cls} {o : Opt} (hn : 0 < o.n) (ht : o.t < 0) (isCall : Bool) :
    (o.type = "european" → TreeEdge.price c o isCall = .ok .nan) ∧
      (o.type = "american" →
        TreeEdge.price c o isCall = .ok (num (if isCall then o.S - o.K else o.K - o.S))) := by
  by_cases hs : c = .tian ∧ o.sigma = 0
  · obtain ⟨rfl, hs⟩ := hs
    obtain ⟨u, p, x, hf, hx, -⟩ := edge_p (c := .tian) (by decide) hn (by simp) (.inr hs)
    constructor <;> intro hty <;> rw [TreeEdge.price, if_neg hn.ne', hf, hty]
    · have := edge_calcPrice false (num o.S) (num o.K) (num u) (num u) (Fl.signed x) (num (exp (-o.r * (o.t / o.n))))
        (num (zOf isCall)) o.n
      simp only [Bool.false_eq_true, if_false] at this
      rw [this, edgeV_euro_nan hx 0 hn 0]
    · have := edge_calcPrice true (num o.S) (num o.K) (num u) (num u) (Fl.signed x) (num (exp (-o.r * (o.t / o.n))))
        (num (zOf isCall)) o.n
      simp only [if_true] at this
      rw [this, edgeV_amer_nan hx 0 hn 0]
      cases isCall <;> simp [zOf]
  obtain ⟨p, Df, hf⟩ := edge_factors_neg (c := c) hn ht (by simpa using hs)
  constructor <;> intro hty <;> rw [TreeEdge.price, if_neg hn.ne', hf, hty]
  · have := edge_calcPrice false (num o.S) (num o.K) .nan .nan p Df (num (zOf isCall)) o.n
    simp only [Bool.false_eq_true, if_false] at this
    rw [this, edgeV_neg_euro hn 0 (Nat.zero_le _) 0 le_rfl]
  · have := edge_calcPrice true (num o.S) (num o.K) .nan .nan p Df (num (zOf isCall)) o.n
    simp only [if_true] at this
    rw [this, edgeV_neg_amer hn]
    cases isCall <;> simp [zOf]

/-! ### The trinomial tree -/

/-- Backward recursion of the trinomial tree. -/
noncomputable def edgeV3 (g : ℕ → ℕ → Fl → Fl → Fl → Fl) (f : ℕ → Fl) (n j k : ℕ) : Fl :=
  if j < n then g j k (edgeV3 g f n (j + 1) (k + 2)) (edgeV3 g f n (j + 1) (k + 1)) (edgeV3 g f n (j + 1) k) else f k
termination_by n - j

theorem edgeV3_last (g : ℕ → ℕ → Fl → Fl → Fl → Fl) (f : ℕ → Fl) (n k : ℕ) : edgeV3 g f n n k = f k := by
  rw [edgeV3, if_neg (lt_irrefl _)]

theorem edgeV3_back (g : ℕ → ℕ → Fl → Fl → Fl → Fl) (f : ℕ → Fl) {n j : ℕ} (h : j < n) (k : ℕ) :
    edgeV3 g f n j k = g j k (edgeV3 g f n (j + 1) (k + 2)) (edgeV3 g f n (j + 1) (k + 1)) (edgeV3 g f n (j + 1) k) := by
  rw [edgeV3, if_pos h]

noncomputable def edgeStep3 (am : Bool) (S K u d pu pd pm Df z : Fl) (j i : ℕ) (h2 h1 h0 : Fl) : Fl :=
  if am then Fl.npMax (TreeEdge.exercise S K u d z (i - j) (j - i)) (TreeEdge.cont3 Df pu pd pm h2 h1 h0)
  else TreeEdge.cont3 Df pu pd pm h2 h1 h0

noncomputable def edgeTerm3 (S K u d z : Fl) (n i : ℕ) : Fl :=
  Fl.npMax 0 (TreeEdge.exercise S K u d z (i - n) (2 * n - n - i))

theorem edge_calcPrice3 (am : Bool) (S K u d pu pd pm Df z : Fl) (n : ℕ) :
    TreeEdge.calcPrice3 S K u d pu pd pm Df z n (if am then "american" else "european")
      = .ok (edgeV3 (edgeStep3 am S K u d pu pd pm Df z) (edgeTerm3 S K u d z n) n 0 0) := by
  obtain ⟨ov, h1, h2⟩ := rollback_val (R := Fl)
    (fun j i l => TreeEdge.cell3 S K u d pu pd pm Df z (if am then "american" else "european") j i l)
    (fun j => j * 2 + 1) (edgeV3 (edgeStep3 am S K u d pu pd pm Df z) (edgeTerm3 S K u d z n) n) (2 * n + 1) n
    (TreeEdge.terminal3 S K u d z n) (by simp [TreeEdge.terminal3]) (by intros; omega)
    (fun k hk => by simp [TreeEdge.terminal3, edgeV3_last, edgeTerm3, show k < 2 * n + 1 by omega])
    (by
      intro q hq i hi l hl hk
      rw [edgeV3_back _ _ hq]
      cases am
      · simp only [TreeEdge.cell3, Bool.false_eq_true, if_false, if_true, edgeStep3]
        rw [getI_ok (hk (i + 2) (by omega) (by omega)), getI_ok (hk (i + 1) (by omega) (by omega)),
          getI_ok (hk i (by omega) (by omega))]
        rfl
      · simp only [TreeEdge.cell3, if_false, if_true, edgeStep3, show ("american" = "european") = False by decide]
        rw [getI_ok (hk (i + 2) (by omega) (by omega)), getI_ok (hk (i + 1) (by omega) (by omega)),
          getI_ok (hk i (by omega) (by omega))]
        rfl)
  rw [TreeEdge.calcPrice3, h1]
  exact getI_ok (h2 0 (by omega))

theorem npMax_num (x y : ℝ) : Fl.npMax (num x) (num y) = num (max x y) := by
  unfold Fl.npMax
  simp only [Fl.lt_num]
  split_ifs with h
  · rw [max_eq_right h.le]
  · rw [max_eq_left (not_lt.1 h)]

theorem npMax_nan (x : Fl) : Fl.npMax x .nan = .nan := by cases x <;> rfl

theorem cont3_num (Df pu pd pm h2 h1 h0 : ℝ) :
    TreeEdge.cont3 (num Df) (num pu) (num pd) (num pm) (num h2) (num h1) (num h0)
      = num ((pu * h2 + pm * h1 + pd * h0) * Df) := by
  simp only [TreeEdge.cont3, Fl.num_mul, Fl.num_add]

theorem cont3_h0_nan (Df pu pd pm h2 h1 : Fl) : TreeEdge.cont3 Df pu pd pm h2 h1 .nan = .nan := by
  simp only [TreeEdge.cont3, Fl.mul_nan, Fl.add_nan, Fl.nan_mul]

theorem edgeV3_num {am isCall : Bool} {S K u d pu pm pd Df : ℝ} {n : ℕ} {V : ℕ → ℕ → ℝ}
    (hV : if am then IsAmerican3 isCall S K u d pu pm pd Df n V else IsEuropean3 isCall S K u d pu pm pd Df n V)
    (j : ℕ) (hj : j ≤ n) (k : ℕ) (hk : k ≤ 2 * j) :
    edgeV3 (edgeStep3 am (num S) (num K) (num u) (num d) (num pu) (num pd) (num pm) (num Df) (num (zOf isCall)))
      (edgeTerm3 (num S) (num K) (num u) (num d) (num (zOf isCall)) n) n j k = num (V j k) := by
  rcases Nat.lt_or_ge j n with h | h
  · rw [edgeV3_back _ _ h, edgeV3_num hV (j + 1) h (k + 2) (by omega), edgeV3_num hV (j + 1) h (k + 1) (by omega),
      edgeV3_num hV (j + 1) h k (by omega)]
    cases am
    · simp only [edgeStep3, Bool.false_eq_true, if_false, cont3_num]
      rw [IsEuropean3.back hV j h k hk]
      congr 1; ring
    · simp only [edgeStep3, if_true, cont3_num, exercise_num, npMax_num]
      rw [IsAmerican3.back hV j h k hk, z_intrinsic, node3]
      congr 2; ring
  · obtain rfl : j = n := by omega
    rw [edgeV3_last, edgeTerm3, exercise_num, Fl.zero_eq, npMax_num, z_intrinsic, max_comm,
      show 2 * j - j - k = j - k by omega]
    cases am
    · rw [IsEuropean3.terminal hV k hk, payoff_eq, node3]
    · rw [IsAmerican3.terminal hV k hk, payoff_eq, node3]
termination_by n - j

/-- Inside the usual range the trinomial price is the one of `Model/Tree`. -/
theorem C104_in_range3 {o : Opt} (hn : 0 < o.n) (ht : 0 < o.t) (hs : 0 < o.sigma) (am isCall : Bool)
    (hty : o.type = if am then "american" else "european") :
    TreeEdge.price3 o isCall = (price3 o isCall).map num := by
  have hf : TreeEdge.factors3 (num o.t) (num o.r) (num o.b) (num o.sigma) o.n
      = ⟨num (factors3 o).u, num (factors3 o).d, num (factors3 o).pu, num (factors3 o).pd, num (factors3 o).pm,
        num (factors3 o).Df⟩ := by
    have hn' : (o.n : ℝ) ≠ 0 := by positivity
    have h2 : (0 : ℝ) ≤ o.t / o.n / 2 := by positivity
    have h3 : (0 : ℝ) ≤ 2 * (o.t / o.n) := by positivity
    have hd : exp (o.sigma * √(o.t / o.n / 2)) - exp (-o.sigma * √(o.t / o.n / 2)) ≠ 0 := by
      have h : 0 < o.sigma * √(o.t / o.n / 2) := by positivity
      have : exp (-o.sigma * √(o.t / o.n / 2)) < exp (o.sigma * √(o.t / o.n / 2)) := by
        rw [exp_lt_exp]; linarith
      linarith
    simp only [TreeEdge.factors3, factors3, Fl.num_div _ hn', Fl.two_eq, Fl.num_div _ (two_ne_zero : (2 : ℝ) ≠ 0),
      Fl.num_sqrt h2, Fl.num_sqrt h3, Fl.num_mul, Fl.num_neg, Fl.num_exp, Fl.num_sub, Fl.num_div _ hd, Fl.num_pow, Fl.one_eq]
  obtain ⟨V, hV⟩ : ∃ V, if am then
      IsAmerican3 isCall o.S o.K (factors3 o).u (factors3 o).d (factors3 o).pu (factors3 o).pm (factors3 o).pd
        (factors3 o).Df o.n V
      else IsEuropean3 isCall o.S o.K (factors3 o).u (factors3 o).d (factors3 o).pu (factors3 o).pm (factors3 o).pd
        (factors3 o).Df o.n V := by
    cases am
    · exact exists_european3 ..
    · exact exists_american3 ..
  have h1 : price3 o isCall = .ok (V 0 0) := by
    rw [price3, if_neg hn.ne']
    cases am
    · simp only [Bool.false_eq_true, if_false] at hV hty
      simp only [hty]
      exact (roll3_euro hV).calcPrice
    · simp only [if_true] at hV hty
      simp only [hty]
      exact (roll3_amer hV).calcPrice
  rw [h1, TreeEdge.price3, if_neg hn.ne', hf]
  simp only [hty]
  rw [edge_calcPrice3 am, edgeV3_num hV 0 (Nat.zero_le _) 0 (by omega)]
  rfl

theorem cont3_pu_nan (Df pd pm h2 h1 h0 : Fl) : TreeEdge.cont3 Df .nan pd pm h2 h1 h0 = .nan := by
  simp only [TreeEdge.cont3, Fl.nan_mul, Fl.nan_add]

theorem cont3_inf (Df : Fl) (v : ℝ) : TreeEdge.cont3 Df .pinf .pinf .ninf (num v) (num v) (num v) = .nan := by
  have h : Fl.pinf * num v + Fl.ninf * num v = .nan := by
    show Fl.add (Fl.mul .pinf (num v)) (Fl.mul .ninf (num v)) = _
    simp only [Fl.mul, Fl.signed]
    rcases lt_trichotomy v 0 with h | h | h
    · rw [if_neg (by linarith), if_pos h, if_pos (by linarith)]; rfl
    · rw [h]; simp; rfl
    · rw [if_pos h, if_neg (by linarith), if_pos (by linarith)]; rfl
  rw [TreeEdge.cont3, h, Fl.nan_add, Fl.nan_mul]

theorem edgeV3_nan {am : Bool} {S K z : ℝ} {pu pd pm u d Df : Fl} {n : ℕ}
    (h : pu = .nan ∨ u = num 1 ∧ d = num 1 ∧ pu = .pinf ∧ pd = .pinf ∧ pm = .ninf) (j : ℕ) (hj : j < n) (k : ℕ) :
    edgeV3 (edgeStep3 am (num S) (num K) u d pu pd pm Df (num z)) (edgeTerm3 (num S) (num K) u d (num z) n) n j k
      = .nan := by
  rw [edgeV3_back _ _ hj]
  have key : ∀ c : Fl, c = .nan → (if am then Fl.npMax (TreeEdge.exercise (num S) (num K) u d (num z) (k - j) (j - k)) c
      else c) = .nan := by
    rintro _ rfl
    cases am
    · rfl
    · exact npMax_nan _
  refine key _ ?_
  rcases h with rfl | ⟨rfl, rfl, rfl, rfl, rfl⟩
  · exact cont3_pu_nan ..
  · rcases Nat.lt_or_ge (j + 1) n with h | h
    · rw [edgeV3_nan (.inr ⟨rfl, rfl, rfl, rfl, rfl⟩) (j + 1) h k, cont3_h0_nan]
    · have : j + 1 = n := by omega
      subst this
      simp only [edgeV3_last, edgeTerm3, exercise_num, one_pow, Fl.zero_eq, npMax_num, cont3_inf]
termination_by n - j

/-- **C104, refuted for the trinomial tree.** At expiry, without volatility and for negative maturities every price is
`nan`, European and American. -/
theorem C104_trinomial_fails {o : Opt} (hn : 0 < o.n) (hd : o.t ≤ 0 ∨ o.sigma = 0) (am isCall : Bool)
    (hty : o.type = if am then "american" else "european") : TreeEdge.price3 o isCall = .ok .nan := by
  have hn' : (o.n : ℝ) ≠ 0 := by positivity
  rw [TreeEdge.price3, if_neg hn.ne']
  simp only [hty]
  rw [edge_calcPrice3 am, edgeV3_nan ?_ 0 hn 0]
  rcases lt_or_ge o.t 0 with ht | ht
  · left
    have h2 : o.t / o.n / 2 < 0 := by
      have : o.t / o.n < 0 := div_neg_of_neg_of_pos ht (by positivity)
      linarith
    simp only [TreeEdge.factors3, Fl.num_div _ hn', Fl.two_eq, Fl.num_div _ (two_ne_zero : (2 : ℝ) ≠ 0),
      Fl.sqrt_neg h2, Fl.mul_nan, Fl.exp_nan, Fl.sub_nan, Fl.div_nan]
    exact Fl.nan_pow 1
  · have h0 : o.t = 0 ∨ o.sigma = 0 := hd.imp_left fun h => le_antisymm h ht
    have h2 : (0 : ℝ) ≤ o.t / o.n / 2 := by positivity
    have h3 : (0 : ℝ) ≤ 2 * (o.t / o.n) := by positivity
    have e1 : o.sigma * √(o.t / o.n / 2) = 0 := by rcases h0 with h | h <;> simp [h]
    have e2 : o.sigma * √(2 * (o.t / o.n)) = 0 := by rcases h0 with h | h <;> simp [h]
    have hdiv : ∀ x, num x / num 0 = Fl.signed x := by
      intro x
      show Fl.mul (num x) (Fl.inv (num 0)) = _
      rw [Fl.inv, if_pos rfl, Fl.mul]
    simp only [TreeEdge.factors3, Fl.num_div _ hn', Fl.two_eq, Fl.num_div _ (two_ne_zero : (2 : ℝ) ≠ 0),
      Fl.num_sqrt h2, Fl.num_sqrt h3, Fl.num_mul, Fl.num_neg, neg_mul, e1, e2, neg_zero, exp_zero, Fl.num_exp, Fl.num_sub,
      sub_self, hdiv]
    have sq : ∀ x, x ≠ 0 → Fl.signed x ^ 2 = .pinf := by
      intro x hx
      rcases lt_or_gt_of_ne hx with h | h
      · rw [Fl.signed, if_neg (by linarith), if_pos h]
        show (1 : Fl) * .ninf * .ninf = .pinf
        rw [Fl.one_eq]
        show Fl.mul (Fl.mul (num 1) .ninf) .ninf = _
        simp [Fl.mul, Fl.signed, not_lt.2 (zero_le_one : (0 : ℝ) ≤ 1)]
      · rw [Fl.signed, if_pos h]
        show (1 : Fl) * .pinf * .pinf = .pinf
        rw [Fl.one_eq]
        show Fl.mul (Fl.mul (num 1) .pinf) .pinf = _
        simp [Fl.mul, Fl.signed]
    rcases eq_or_ne (exp (o.b * (o.t / o.n) / 2) - 1) 0 with h | h
    · left
      rw [h, signed_zero]
      exact Fl.nan_pow 1
    · right
      rw [sq _ h, sq _ (by intro h'; apply h; linarith), Fl.one_eq]
      exact ⟨trivial, trivial, rfl, rfl, rfl⟩

/-- A concrete American call with one strike above the spot: on its last day the Cox–Ross–Rubinstein price is `-10` and the
trinomial price is `nan`, while the Jarrow–Rudd price is the payoff `0`. -/
theorem C104_example :
    let o : Opt := ⟨90, 100, 0, 0.05, 0.05, 0.3, "american", 5⟩
    TreeEdge.price .crr o true = .ok (num (-10)) ∧ TreeEdge.price3 o true = .ok .nan
      ∧ TreeEdge.price .jr o true = .ok (num 0) := by
  refine ⟨?_, C104_trinomial_fails (by norm_num) (.inl le_rfl) true true rfl, ?_⟩
  · rw [C104_american_fails (by simp) (by norm_num) le_rfl (.inl rfl) rfl]
    norm_num
  · rw [C104_jr_american_partial (by norm_num) rfl rfl]
    norm_num [payoff]

end Verif.Props
