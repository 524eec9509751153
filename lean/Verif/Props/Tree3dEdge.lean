import Verif.Lemmas.Tree3d
import Verif.Props.TreeExpiry

/-!
C105 — the two-asset tree for arguments outside the usual range: unknown option numbers, correlations above one, negative
maturities.
-/
namespace Verif.Props
open Real Py
open Fl (num)
open Tree3dEdge (payoff store)

/-! ### All values `nan` -/

/-- An array of the size used by `_calc_price` whose used part is `nan`. -/
structure NanMat (n : ℕ) (M : Mat Fl) : Prop where
  rows : M.rows = n + 2
  cols : M.cols = n + 2
  entry : ∀ a ≤ n, ∀ b ≤ n, M.entry a b = .nan

theorem NanMat.get {n : ℕ} {M : Mat Fl} (h : NanMat n M) {a b : ℕ} (ha : a ≤ n) (hb : b ≤ n) : M.get a b = .ok .nan := by
  rw [Mat.get, if_pos ⟨by rw [h.rows]; omega, by rw [h.cols]; omega⟩, h.entry a ha b hb]

theorem NanMat.set {n : ℕ} {M : Mat Fl} (h : NanMat n M) {a b : ℕ} (ha : a ≤ n) (hb : b ≤ n) :
    ∃ M', M.set a b .nan = .ok M' ∧ NanMat n M' := by
  refine ⟨{ M with entry := fun x y => if x = a ∧ y = b then .nan else M.entry x y },
    by rw [Mat.set, if_pos ⟨by rw [h.rows]; omega, by rw [h.cols]; omega⟩], h.rows, h.cols, ?_⟩
  intro x hx y hy
  simp only
  split
  · rfl
  · exact h.entry x hx y hy

theorem fill_nan {pay : ℕ → ℕ → ℕ → Except PyErr (Option Fl)} {n : ℕ}
    (h : ∀ j i, ∃ v, pay n j i = .ok v ∧ store v = .nan) :
    ∃ M, Tree3dEdge.fillTerminal pay n = .ok M ∧ NanMat n M := by
  obtain ⟨M, h1, hr, hc, he⟩ := foldlM_range_inv (n := n + 1)
    (f := fun M j => (List.range (n + 1)).foldlM (init := M) fun M i => do
      let v ← pay n j i
      M.set j i (store v))
    (s := (⟨n + 2, n + 2, fun _ _ => 0⟩ : Mat Fl))
    (P := fun k M => M.rows = n + 2 ∧ M.cols = n + 2 ∧ ∀ a < k, ∀ b ≤ n, M.entry a b = .nan)
    ⟨rfl, rfl, fun a ha => absurd ha (Nat.not_lt_zero _)⟩
    (fun k hk M hM => by
      obtain ⟨M', h1, hr, hc, he, hb⟩ := foldlM_range_inv (n := n + 1)
        (f := fun M i => do
          let v ← pay n k i
          M.set k i (store v))
        (s := M)
        (P := fun q M => M.rows = n + 2 ∧ M.cols = n + 2 ∧ (∀ a < k, ∀ b ≤ n, M.entry a b = .nan)
          ∧ ∀ b < q, M.entry k b = .nan)
        ⟨hM.1, hM.2.1, hM.2.2, fun b hb => absurd hb (Nat.not_lt_zero _)⟩
        (fun q hq M hM => by
          obtain ⟨v, hv, hs⟩ := h k q
          refine ⟨{ M with entry := fun x y => if x = k ∧ y = q then .nan else M.entry x y }, by
              rw [hv]
              show M.set k q (store v) = _
              rw [hs, Mat.set, if_pos ⟨by rw [hM.1]; omega, by rw [hM.2.1]; omega⟩],
            hM.1, hM.2.1, ?_, ?_⟩
          · intro a ha b hb
            simp only
            rw [if_neg (by omega)]
            exact hM.2.2.1 a ha b hb
          · intro b hb
            rcases eq_or_ne b q with rfl | h'
            · exact if_pos ⟨rfl, rfl⟩
            · exact (if_neg fun h => h' h.2).trans (hM.2.2.2 b (by omega)))
      refine ⟨M', h1, hr, hc, fun a ha b hb' => ?_⟩
      rcases Nat.lt_succ_iff_lt_or_eq.1 ha with h | rfl
      · exact he a h b hb'
      · exact hb b (by omega))
  exact ⟨M, h1, hr, hc, fun a ha b hb => he a (by omega) b hb⟩

theorem rollback_nan {pay : ℕ → ℕ → ℕ → Except PyErr (Option Fl)} {am : Bool} {D : Fl} {n : ℕ} {M : Mat Fl}
    (hM : NanMat n M) (h : am = true → ∀ m j i, ∃ v, pay m j i = .ok (some v)) :
    ∃ M', Tree3dEdge.rollback pay am D n M = .ok M' ∧ NanMat n M' := by
  refine foldlM_range_rev_inv (P := fun _ M => NanMat n M) hM fun m hm M hM => ?_
  refine foldlM_range_inv (P := fun _ M => NanMat n M) hM fun j hj M hM => ?_
  refine foldlM_range_inv (P := fun _ M => NanMat n M) hM fun i hi M hM => ?_
  rw [hM.get (by omega) (by omega), hM.get (by omega) (by omega), hM.get (by omega) (by omega),
    hM.get (by omega) (by omega)]
  simp only [bind, Except.bind, Fl.nan_add, Fl.mul_nan, Fl.nan_mul]
  obtain ⟨M1, h1, hM1⟩ := hM.set (a := j) (b := i) (by omega) (by omega)
  rw [h1]
  cases am
  · exact ⟨M1, rfl, hM1⟩
  · obtain ⟨v, hv⟩ := h rfl m j i
    simp only [if_true]
    rw [hM1.get (by omega) (by omega), hv]
    exact hM1.set (by omega) (by omega)

theorem calcPrice_nan {pay : ℕ → ℕ → ℕ → Except PyErr (Option Fl)} {am : Bool} {D : Fl} {n : ℕ}
    (h1 : ∀ j i, ∃ v, pay n j i = .ok v ∧ store v = .nan)
    (h2 : am = true → ∀ m j i, ∃ v, pay m j i = .ok (some v)) :
    Tree3dEdge.calcPrice pay am D n = .ok .nan := by
  obtain ⟨M, e1, hM⟩ := fill_nan h1
  obtain ⟨M', e2, hM'⟩ := rollback_nan (D := D) hM h2
  rw [Tree3dEdge.calcPrice, e1]
  show (do let M ← Tree3dEdge.rollback pay am D n M; M.get 0 0) = _
  rw [e2]
  exact hM'.get (Nat.zero_le _) (Nat.zero_le _)

/-! ### Unknown option numbers -/

theorem pay_unknown {o : Tree3dEdge.Opt} (h : o.option < 1 ∨ 9 < o.option) (isCall : Bool) (m j i : ℕ) :
    o.pay isCall m j i = .ok none := by
  unfold Tree3dEdge.Opt.pay payoff
  rw [if_neg (by omega), if_neg (by omega), if_neg (by omega), if_neg (by omega), if_neg (by omega), if_neg (by omega),
    if_neg (by omega), if_neg (by omega), if_neg (by omega)]
  rfl

/-- **C105, refuted for option numbers.** An option number outside `1…9` is not refused: the European price is `nan`. -/
theorem C105_unknown_european_fails {o : Tree3dEdge.Opt} (hn : 0 < o.n) (h : o.option < 1 ∨ 9 < o.option)
    (hty : o.otype ≠ "american") (isCall : Bool) : Tree3dEdge.price o isCall = .ok .nan := by
  rw [Tree3dEdge.price, if_neg hn.ne']
  refine calcPrice_nan (fun j i => ⟨none, pay_unknown h isCall _ _ _, rfl⟩) fun h' => ?_
  simp [hty] at h'

/-- For an American option the unknown number surfaces as a `TypeError` in the middle of the rollback. -/
theorem C105_unknown_american {o : Tree3dEdge.Opt} (hn : 0 < o.n) (h : o.option < 1 ∨ 9 < o.option)
    (hty : o.otype = "american") (isCall : Bool) : Tree3dEdge.price o isCall = .error .typeError := by
  rw [Tree3dEdge.price, if_neg hn.ne', Tree3dEdge.calcPrice]
  obtain ⟨M, e1, hM⟩ := fill_nan (pay := o.pay isCall) (n := o.n)
    (fun j i => ⟨none, pay_unknown h isCall _ _ _, rfl⟩)
  obtain ⟨n, hn⟩ := Nat.exists_eq_succ_of_ne_zero hn.ne'
  rw [e1]
  rw [hn] at hM ⊢
  show (do let M ← Tree3dEdge.rollback (o.pay isCall) _ _ _ M; M.get 0 0) = _
  have : ∀ D, Tree3dEdge.rollback (o.pay isCall) true D (n + 1) M = .error .typeError := by
    intro D
    rw [Tree3dEdge.rollback, List.range_succ, List.reverse_append, List.reverse_singleton, List.singleton_append,
      List.foldlM_cons, List.range_succ_eq_map, List.foldlM_cons, List.foldlM_cons,
      hM.get (by omega) (by omega), hM.get (by omega) (by omega), hM.get (by omega) (by omega),
      hM.get (by omega) (by omega)]
    simp only [bind, Except.bind, Fl.nan_add, Fl.mul_nan, Fl.nan_mul]
    obtain ⟨M1, h1, hM1⟩ := hM.set (a := 0) (b := 0) (by omega) (by omega)
    rw [h1]
    simp only [if_true]
    rw [hM1.get (by omega) (by omega), pay_unknown h]
    rfl
  simp only [hty, decide_true]
  rw [this]
  rfl

/-! ### Correlations above one and negative maturities -/

theorem node2_nan {o : Tree3dEdge.Opt} (h : 1 < |o.rho| ∨ o.t < 0) (hn : 0 < o.n) (m j i : ℕ) : o.node2 m j i = .nan := by
  have key : (num o.rho * (num (2 * (j : ℝ) - m) * Fl.sqrt o.dt)
      + Fl.sqrt (1 - num (o.rho ^ 2)) * num (2 * (i : ℝ) - m) * Fl.sqrt o.dt) = .nan := by
    rcases h with h | h
    · have h1 : 1 - o.rho ^ 2 < 0 := by
        have : 1 < o.rho ^ 2 := (one_lt_sq_iff_one_lt_abs _).2 h
        linarith
      rw [Fl.one_eq, Fl.num_sub, Fl.sqrt_neg h1, Fl.nan_mul, Fl.nan_mul, Fl.add_nan]
    · have h1 : o.t / o.n < 0 := div_neg_of_neg_of_pos h (by positivity)
      rw [Tree3dEdge.Opt.dt, Fl.sqrt_neg h1, Fl.mul_nan, Fl.mul_nan, Fl.nan_add]
  unfold Tree3dEdge.Opt.node2
  simp only
  rw [key, Fl.mul_nan, Fl.exp_nan, Fl.mul_nan]

theorem npMin_nan (x : Fl) : Fl.npMin x .nan = .nan := by cases x <;> rfl

theorem payoff_nan {option : ℤ} (h1 : 1 ≤ option) (h9 : option ≤ 9) (z S1 Q1 Q2 k k2 : Fl) :
    payoff option z S1 .nan Q1 Q2 (some k) (some k2) = .ok (some .nan) := by
  obtain h | h | h | h | h | h | h | h | h : option = 1 ∨ option = 2 ∨ option = 3 ∨ option = 4 ∨ option = 5 ∨ option = 6 ∨
    option = 7 ∨ option = 8 ∨ option = 9 := by omega
  all_goals
    subst h
    simp [payoff, bind, Except.bind, pure, Except.pure, Fl.mul_nan, Fl.sub_nan, Fl.nan_sub, Fl.add_nan, npMax_nan, npMin_nan]

/-- **C105, refuted for correlations and maturities.** A correlation above one in absolute value, or a negative maturity, is
not refused: every price is `nan`. -/
theorem C105_correlation_fails {o : Tree3dEdge.Opt} (hn : 0 < o.n) (h : 1 < |o.rho| ∨ o.t < 0) (h1 : 1 ≤ o.option)
    (h9 : o.option ≤ 9) {k k2 : ℝ} (hK : o.K = some k) (hK2 : o.K2 = some k2) (isCall : Bool) :
    Tree3dEdge.price o isCall = .ok .nan := by
  have hp : ∀ m j i, o.pay isCall m j i = .ok (some .nan) := by
    intro m j i
    rw [Tree3dEdge.Opt.pay, node2_nan h hn, hK, hK2]
    exact payoff_nan h1 h9 ..
  rw [Tree3dEdge.price, if_neg hn.ne']
  exact calcPrice_nan (fun j i => ⟨_, hp _ _ _, rfl⟩) fun _ m j i => ⟨_, hp _ _ _⟩

/-! ### In range -/

theorem foldlM_map {α β γ : Type} {f : α → γ → Except PyErr α} {g : β → γ → Except PyErr β} {φ : α → β} (l : List γ) (s : α)
    (h : ∀ s a, g (φ s) a = (f s a).map φ) : l.foldlM g (φ s) = (l.foldlM f s).map φ := by
  induction l generalizing s with
  | nil => rfl
  | cons a l ih =>
    rw [List.foldlM_cons, List.foldlM_cons, h]
    cases f s a with
    | error e => rfl
    | ok s' => exact ih s'

/-- The same array with its numbers read as floats. -/
def matNum (M : Mat ℝ) : Mat Fl := ⟨M.rows, M.cols, fun a b => num (M.entry a b)⟩

theorem matNum_get (M : Mat ℝ) (a b : ℕ) : (matNum M).get a b = (M.get a b).map num := by
  unfold Mat.get matNum
  simp only
  split <;> rfl

theorem matNum_set (M : Mat ℝ) (a b : ℕ) (v : ℝ) : (matNum M).set a b (num v) = (M.set a b v).map matNum := by
  unfold Mat.set matNum
  simp only
  split
  · simp only [Except.map]
    congr 2
    funext x y
    split <;> rfl
  · rfl

theorem npMin_num (x y : ℝ) : Fl.npMin (num x) (num y) = num (min x y) := by
  unfold Fl.npMin
  simp only [Fl.lt_num]
  split_ifs with h
  · rw [min_eq_left h.le]
  · rw [min_eq_right (not_lt.1 h)]

theorem payoff_num (c : Tree3d.Code) (z S1 S2 Q1 Q2 : ℝ) (hQ : c = .outperformance → Q2 ≠ 0) (K K2 : Option ℝ) :
    payoff c.number (num z) (num S1) (num S2) (num Q1) (num Q2) (K.map num) (K2.map num)
      = (Tree3d.payoff c z S1 S2 Q1 Q2 K K2).map fun x => some (num x) := by
  cases c <;> cases K <;> cases K2 <;>
    simp [payoff, Tree3d.payoff, Tree3d.Code.number, Tree3d.num, bind, Except.bind, pure, Except.pure, Except.map,
      Fl.zero_eq, Fl.num_mul, Fl.num_sub, Fl.num_add, npMax_num, npMin_num, Fl.num_div, hQ]

/-- The option of `Model/Tree3d` with its number spelled out. -/
def edgeOpt (o : Tree3d.Opt) : Tree3dEdge.Opt :=
  ⟨o.S1, o.S2, o.t, o.r, o.b1, o.b2, o.sigma1, o.sigma2, o.rho, o.K, o.K2, o.Q1, o.Q2, o.option.number, o.otype, o.n⟩

theorem edge_pay {o : Tree3d.Opt} (ht : 0 ≤ o.t) (hρ : |o.rho| ≤ 1) (hQ : o.option = .outperformance → o.Q2 ≠ 0)
    (isCall : Bool) (m j i : ℕ) :
    (edgeOpt o).pay isCall m j i = (o.pay isCall m j i).map fun x => some (num x) := by
  have hdt : 0 ≤ o.t / o.n := by positivity
  have hr : 0 ≤ 1 - o.rho ^ 2 := by
    have := (sq_le_one_iff_abs_le_one o.rho).2 hρ
    linarith
  have h1 : (edgeOpt o).node1 m j = num (o.node1 m j) := by
    simp only [Tree3dEdge.Opt.node1, Tree3dEdge.Opt.u, Tree3dEdge.Opt.d, Tree3dEdge.Opt.mu1, Tree3dEdge.Opt.dt, edgeOpt,
      Tree3d.Opt.node1, Tree3d.Opt.u, Tree3d.Opt.d, Tree3d.Opt.mu1, Tree3d.Opt.dt, Fl.num_sqrt hdt, Fl.num_mul, Fl.num_add,
      Fl.num_sub, Fl.num_exp, Fl.num_pow]
  have h2 : (edgeOpt o).node2 m j i = num (o.node2 m j i) := by
    simp only [Tree3dEdge.Opt.node2, Tree3dEdge.Opt.mu2, Tree3dEdge.Opt.dt, edgeOpt, Tree3d.Opt.node2, Tree3d.Opt.mu2,
      Tree3d.Opt.dt, Fl.num_sqrt hdt, Fl.one_eq, Fl.num_sub, Fl.num_sqrt hr, Fl.num_mul, Fl.num_add, Fl.num_exp]
  rw [Tree3dEdge.Opt.pay, h1, h2]
  exact payoff_num o.option _ _ _ _ _ hQ _ _

/-- Inside the usual range, including `t = 0`, nothing changes: the price is the one of `Model/Tree3d`. -/
theorem C105_in_range {o : Tree3d.Opt} (ht : 0 ≤ o.t) (hρ : |o.rho| ≤ 1) (hQ : o.option = .outperformance → o.Q2 ≠ 0)
    (isCall : Bool) : Tree3dEdge.price (edgeOpt o) isCall = (Tree3d.price o isCall).map num := by
  unfold Tree3dEdge.price Tree3d.price
  rw [show (edgeOpt o).n = o.n from rfl, show (edgeOpt o).otype = o.otype from rfl]
  split
  · rfl
  have hD : Fl.exp (-(num (edgeOpt o).r) * (edgeOpt o).dt) = num (exp (-o.r * o.dt)) := rfl
  rw [hD]
  generalize exp (-o.r * o.dt) = D
  generalize decide (o.otype = "american") = am
  have hp := edge_pay ht hρ hQ isCall
  have hf : Tree3dEdge.fillTerminal ((edgeOpt o).pay isCall) o.n
      = (Tree3d.fillTerminal (o.pay isCall) o.n).map matNum := by
    unfold Tree3dEdge.fillTerminal Tree3d.fillTerminal
    have h0 : (⟨o.n + 2, o.n + 2, fun _ _ => 0⟩ : Mat Fl) = matNum (Mat.zeros (o.n + 2) (o.n + 2)) := by
      simp only [matNum, Mat.zeros, Fl.zero_eq]
    rw [h0]
    refine foldlM_map _ _ fun M j => foldlM_map _ _ fun M i => ?_
    rw [hp]
    cases o.pay isCall o.n j i with
    | error e => rfl
    | ok v => exact matNum_set M j i v
  have hr : ∀ M, Tree3dEdge.rollback ((edgeOpt o).pay isCall) am (num D) o.n (matNum M)
      = (Tree3d.rollback (o.pay isCall) am D o.n M).map matNum := by
    intro M
    unfold Tree3dEdge.rollback Tree3d.rollback
    refine foldlM_map _ _ fun M m => foldlM_map _ _ fun M j => foldlM_map _ _ fun M i => ?_
    simp only [matNum_get]
    cases M.get j i with
    | error e => rfl
    | ok a =>
    cases M.get (j + 1) i with
    | error e => rfl
    | ok b =>
    cases M.get j (i + 1) with
    | error e => rfl
    | ok c =>
    cases M.get (j + 1) (i + 1) with
    | error e => rfl
    | ok d =>
    have e : num 0.25 * (num a + num b + num c + num d) * num D = num (1 / 4 * (a + b + c + d) * D) := by
      simp only [Fl.num_add, Fl.num_mul]
      norm_num
    simp only [Except.map, bind, Except.bind, e, matNum_set]
    cases M.set j i (1 / 4 * (a + b + c + d) * D) with
    | error e => rfl
    | ok M =>
    cases am
    · rfl
    · simp only [if_true, matNum_get]
      cases M.get j i with
      | error e => rfl
      | ok x =>
      simp only [Except.map, hp]
      cases o.pay isCall m j i with
      | error e => rfl
      | ok y =>
      simp only [npMax_num]
      exact matNum_set M j i _
  unfold Tree3dEdge.calcPrice Tree3d.calcPrice Tree3d.calcTree
  rw [hf]
  cases Tree3d.fillTerminal (o.pay isCall) o.n with
  | error e => rfl
  | ok M =>
    simp only [Except.map, bind, Except.bind, hr]
    cases Tree3d.rollback (o.pay isCall) am D o.n M with
    | error e => rfl
    | ok M => exact matNum_get M 0 0

/-- Option number 10 on two assets of 100 and 110: European `nan`, American `TypeError`; correlation 2: `nan`. -/
theorem C105_example (option : ℤ) (rho : ℝ) (otype : String)
    (o : Tree3dEdge.Opt)
    (ho : o = ⟨100, 110, 1, 0.05, 0.05, 0.05, 0.3, 0.2, rho, some 1, some 1, 1, 1, option, otype, 3⟩) :
    (option = 10 → otype = "european" → Tree3dEdge.price o true = .ok .nan)
      ∧ (option = 10 → otype = "american" → Tree3dEdge.price o true = .error .typeError)
      ∧ (option = 1 → rho = 2 → Tree3dEdge.price o true = .ok .nan) := by
  subst ho
  refine ⟨?_, ?_, ?_⟩
  · rintro rfl rfl
    exact C105_unknown_european_fails (by norm_num) (by norm_num) (show "european" ≠ "american" by decide) true
  · rintro rfl rfl
    exact C105_unknown_american (by norm_num) (by norm_num) rfl true
  · rintro rfl rfl
    exact C105_correlation_fails (by norm_num) (.inl (by norm_num)) le_rfl (by norm_num) rfl rfl true

end Verif.Props
