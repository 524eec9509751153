import Verif.Props.Stopping

/-!
# C113: the early-exercise region of American lattice options

Where it is optimal to exercise an American put at once it is so at every lower spot, if the rate is not negative; where it is
optimal to exercise an American call it is so at every higher spot, if the carry is at most the rate. What is worth exercising
with a long time left is so with a shorter time left. With negative rates exercise regions are not of this form.
-/
namespace Verif.Props
open Real Spec _root_.Verif.Tree Py

/-- Steps that never raise slopes above one. -/
def Slope (T : (ℝ → ℝ) → ℝ → ℝ) : Prop :=
  ∀ F : ℝ → ℝ, (∀ x y, x ≤ y → F y ≤ F x + (y - x)) → ∀ x y, x ≤ y → T F y ≤ T F x + (y - x)

theorem slope_bin {D p u d : ℝ} (hD : 0 ≤ D) (p0 : 0 ≤ p) (p1 : p ≤ 1) (hu : 0 ≤ u) (hd : 0 ≤ d)
    (hm : D * (p * u + (1 - p) * d) ≤ 1) : Slope (binOp D p u d) := by
  intro F hF x y hxy
  have h1 := mul_le_mul_of_nonneg_left (hF (x * u) (y * u) (by gcongr)) p0
  have h2 := mul_le_mul_of_nonneg_left (hF (x * d) (y * d) (by gcongr)) (by linarith : 0 ≤ 1 - p)
  have h3 := mul_le_mul_of_nonneg_left (add_le_add h1 h2) hD
  have h4 := mul_le_mul_of_nonneg_right hm (by linarith : 0 ≤ y - x)
  unfold binOp
  calc _ ≤ _ := h3
    _ = D * (p * F (x * u) + (1 - p) * F (x * d)) + D * (p * u + (1 - p) * d) * (y - x) := by ring
    _ ≤ _ := by linarith

theorem Slope.vf {T : (ℝ → ℝ) → ℝ → ℝ} (hT : Slope T) (K : ℝ) (m : ℕ) :
    ∀ x y, x ≤ y → vf true true K T m y ≤ vf true true K T m x + (y - x) := by
  induction m with
  | zero =>
    intro x y hxy
    simp only [Verif.vf, payoff, if_true]
    have := le_max_left (x - K) 0
    have := le_max_right (x - K) 0
    exact max_le (by linarith) (by linarith)
  | succ m ih =>
    intro x y hxy
    simp only [Verif.vf, if_true]
    have h1 := hT _ ih x y hxy
    have h2 := le_max_left (intrinsic true x K) (T (Verif.vf true true K T m) x)
    have h3 := le_max_right (intrinsic true x K) (T (Verif.vf true true K T m) x)
    refine max_le ?_ (by linarith)
    simp only [intrinsic, if_true] at *
    linarith

theorem vf_ge_intrinsic {T : (ℝ → ℝ) → ℝ → ℝ} (isCall : Bool) (K : ℝ) (m : ℕ) (s : ℝ) :
    intrinsic isCall s K ≤ vf true isCall K T m s := by
  cases m with
  | zero => simp only [vf, payoff_eq]; exact le_max_left _ _
  | succ m => simp only [vf, if_true]; exact le_max_left _ _

/-- A worthless stock leaves the strike. -/
theorem vf_put_zero {T : (ℝ → ℝ) → ℝ → ℝ} {D K : ℝ} (hD : D ≤ 1) (hT : ∀ F, T F 0 = D * F 0) (hK : 0 ≤ K) (m : ℕ) :
    vf true false K T m 0 = K := by
  induction m with
  | zero => simp [vf, payoff, hK]
  | succ m ih =>
    simp only [vf, if_true, hT, ih, intrinsic, Bool.false_eq_true, if_false, sub_zero]
    exact max_eq_left (by nlinarith)

/-- Puts: the exercise region is an interval from `0`. -/
theorem put_region {T : (ℝ → ℝ) → ℝ → ℝ} (hT : GoodOp T) {D K : ℝ} (hD : D ≤ 1) (hT0 : ∀ F, T F 0 = D * F 0)
    (h0 : ∀ f, (∀ s, 0 ≤ f s) → ∀ s, 0 ≤ T f s) (m : ℕ) {s s' : ℝ} (hs' : 0 ≤ s') (hss : s' ≤ s)
    (h : vf true false K T m s = K - s) : vf true false K T m s' = K - s' := by
  have hnn := vf_nonneg' h0 true false K m s
  have hK : 0 ≤ K := by linarith
  refine le_antisymm ?_ (by simpa [intrinsic] using vf_ge_intrinsic (T := T) false K m s')
  rcases (hs'.trans hss).eq_or_lt with hs | hs
  · have : s' = s := by linarith
    rw [this, h]
  · have hc := vf_convex hT true false K m 0 s (1 - s' / s) (s' / s) (by rw [sub_nonneg, div_le_one hs]; exact hss)
      (div_nonneg hs' hs.le) (by ring)
    rw [vf_put_zero hD hT0 hK, h] at hc
    have e1 : (1 - s' / s) * 0 + s' / s * s = s' := by field_simp; ring
    have e2 : (1 - s' / s) * K + s' / s * (K - s) = K - s' := by field_simp; ring
    rwa [e1, e2] at hc

/-- Calls: the exercise region is a half-line. -/
theorem call_region {T : (ℝ → ℝ) → ℝ → ℝ} (hT : Slope T) {K : ℝ} (m : ℕ) {s s' : ℝ} (hss : s ≤ s')
    (h : vf true true K T m s = s - K) : vf true true K T m s' = s' - K := by
  refine le_antisymm ?_ (by simpa [intrinsic] using vf_ge_intrinsic (T := T) true K m s')
  have := hT.vf K m s s' hss
  linarith

theorem mean_le (c : Cls) {o : Opt} (h : TreeValid o) :
    (factors c o).p * (factors c o).u + (1 - (factors c o).p) * (factors c o).d ≤ exp (o.b * (o.t / o.n)) := by
  cases c
  · exact (good_crr h).mean.le
  · rw [jr_mean]
    have h1 : cosh (o.sigma * √(o.t / o.n)) ≤ exp ((o.sigma * √(o.t / o.n)) ^ 2 / 2) := cosh_le_exp_half_sq _
    rw [mul_pow, sq_sqrt h.dt.le] at h1
    calc _ ≤ exp ((o.b - o.sigma ^ 2 / 2) * (o.t / o.n)) * exp (o.sigma ^ 2 * (o.t / o.n) / 2) := by gcongr
      _ = _ := by rw [← exp_add]; congr 1; ring
  · exact (good_tian h).mean.le

theorem slope_factors (c : Cls) {o : Opt} (h : TreeValid o) (hp : ProbOK c o) (hbr : o.b ≤ o.r) :
    Slope (binOp (factors c o).Df (factors c o).p (factors c o).u (factors c o).d) := by
  obtain ⟨p0, p1⟩ := prob_ok h hp
  obtain ⟨u0, d0⟩ : 0 ≤ (factors c o).u ∧ 0 ≤ (factors c o).d := by
    cases c
    · exact ⟨(exp_pos _).le, (good_crr h).d_pos.le⟩
    · exact ⟨(exp_pos _).le, (exp_pos _).le⟩
    · exact ⟨((good_tian h).d_pos.trans (good_tian h).lt).le, (good_tian h).d_pos.le⟩
  refine slope_bin (Df_nonneg _) p0 p1 u0 d0 ?_
  calc _ ≤ (factors c o).Df * exp (o.b * (o.t / o.n)) := mul_le_mul_of_nonneg_left (mean_le c h) (Df_nonneg _)
    _ = exp ((o.b - o.r) * (o.t / o.n)) := by rw [Df_eq, ← exp_add]; congr 1; ring
    _ ≤ 1 := by
      rw [exp_le_one_iff]
      have := h.dt
      nlinarith

theorem binOp_zero {D p u d : ℝ} (F : ℝ → ℝ) : binOp D p u d F 0 = D * F 0 := by
  simp only [binOp, zero_mul]; ring

/-- **C113, puts.** If the American put is worth no more than exercising it now, the same holds at every lower spot. -/
theorem C113_put (c : Cls) (o : Opt) (h : TreeValid o) (hp : ProbOK c o) (hty : o.type = "american") (hr : 0 ≤ o.r) (S' : ℝ)
    (h0 : 0 ≤ S') (hS : S' ≤ o.S) (hx : price c o false = .ok (o.K - o.S)) :
    price c { o with S := S' } false = .ok (o.K - S') := by
  obtain ⟨p0, p1⟩ := prob_ok h hp
  rw [price_vf (am := true) h.n hty] at hx
  have hx := Except.ok.inj hx
  rw [price_vf (o := { o with S := S' }) (am := true) h.n hty]
  congr 1
  exact put_region (goodOp_bin (Df_nonneg _) p0 p1 _ _) (Df_le_one c h hr) (fun F => binOp_zero F)
    (binOp_nonneg (Df_nonneg _) p0 p1 _ _) o.n h0 hS hx

/-- **C113, calls.** If the American call is worth no more than exercising it now, the same holds at every higher spot. -/
theorem C113_call (c : Cls) (o : Opt) (h : TreeValid o) (hp : ProbOK c o) (hty : o.type = "american") (hbr : o.b ≤ o.r) (S' : ℝ)
    (hS : o.S ≤ S') (hx : price c o true = .ok (o.S - o.K)) :
    price c { o with S := S' } true = .ok (S' - o.K) := by
  rw [price_vf (am := true) h.n hty] at hx
  have hx := Except.ok.inj hx
  rw [price_vf (o := { o with S := S' }) (am := true) h.n hty]
  congr 1
  exact call_region (slope_factors c h hp hbr) o.n hS hx

/-- **C113, time.** What is worth exercising with `m` more periods to go is worth exercising now. -/
theorem C113_time (c : Cls) (o : Opt) (h : TreeValid o) (hp : ProbOK c o) (hty : o.type = "american") (m : ℕ) (isCall : Bool)
    (hx : price c { o with t := o.t * (o.n + m) / o.n, n := o.n + m } isCall = .ok (if isCall then o.S - o.K else o.K - o.S)) :
    price c o isCall = .ok (if isCall then o.S - o.K else o.K - o.S) := by
  obtain ⟨x, y, e1, e2, hle⟩ := C73_binomial c o h hp hty m isCall
  rw [hx] at e2
  have e2 := Except.ok.inj e2
  rw [price_vf (am := true) h.n hty] at e1 ⊢
  have e1 := Except.ok.inj e1
  congr 1
  refine le_antisymm (by rw [e1, e2]; exact hle) ?_
  have := vf_ge_intrinsic (T := binOp (factors c o).Df (factors c o).p (factors c o).u (factors c o).d) isCall o.K o.n o.S
  cases isCall <;> simpa [intrinsic] using this

/-- Entries of the matrix of an American option as values at the nodes. -/
theorem tree_vf (c : Cls) (o : Opt) (hn : 0 < o.n) (hty : o.type = "american") (isCall : Bool) :
    ∃ M, priceTree c o isCall = .ok M ∧ ∀ j ≤ o.n, ∀ a ≤ j, M.entry a j
      = vf true isCall o.K (binOp (factors c o).Df (factors c o).p (factors c o).u (factors c o).d) (o.n - j)
        (o.S * (factors c o).u ^ (j - a) * (factors c o).d ^ a) := by
  obtain ⟨V, M, hV, hM, -, -, he, -⟩ := C20_tree_american c o hn hty isCall
  refine ⟨M, hM, fun j hj a ha => ?_⟩
  have hV' : IsVal true isCall o.S o.K (factors c o).u (factors c o).d (factors c o).p (factors c o).Df o.n V :=
    ⟨hV.terminal, by simpa using hV.back⟩
  rw [he a (by omega) j hj, if_pos ha, vf_val hV' j hj (j - a) (by omega)]
  simp only [Spec.node]
  rw [show j - (j - a) = a by omega]

/-- Nodes further down are lower. -/
theorem node_anti {S u d : ℝ} (hS : 0 ≤ S) (hd : 0 ≤ d) (hdu : d ≤ u) {j a a' : ℕ} (ha : a ≤ a') (hj : a' ≤ j) :
    S * u ^ (j - a') * d ^ a' ≤ S * u ^ (j - a) * d ^ a := by
  obtain ⟨k, rfl⟩ := Nat.exists_eq_add_of_le ha
  rw [show j - a = (j - (a + k)) + k by omega, pow_add, pow_add, show S * u ^ (j - (a + k)) * (d ^ a * d ^ k)
    = S * u ^ (j - (a + k)) * d ^ a * d ^ k by ring, show S * (u ^ (j - (a + k)) * u ^ k) * d ^ a
    = S * u ^ (j - (a + k)) * d ^ a * u ^ k by ring]
  have hu : 0 ≤ u := hd.trans hdu
  gcongr

theorem factors_le (c : Cls) {o : Opt} (h : TreeValid o) : 0 ≤ (factors c o).d ∧ (factors c o).d ≤ (factors c o).u := by
  cases c
  · exact ⟨(good_crr h).d_pos.le, (good_crr h).lt.le⟩
  · refine ⟨(exp_pos _).le, exp_le_exp.2 ?_⟩
    have : 0 ≤ o.sigma * √(o.t / o.n) := mul_nonneg h.sigma.le (sqrt_nonneg _)
    linarith
  · exact ⟨(good_tian h).d_pos.le, (good_tian h).lt.le⟩

/-- **C113, tree matrix.** In every column `j` of the matrix of an American put, the entries below an exercised one are exercised;
row `a` holds the node after `a` down moves. -/
theorem C113_tree_put (c : Cls) (o : Opt) (h : TreeValid o) (hp : ProbOK c o) (hty : o.type = "american") (hr : 0 ≤ o.r)
    (hS : 0 ≤ o.S) :
    ∃ M, priceTree c o false = .ok M ∧ ∀ j ≤ o.n, ∀ a a', a ≤ a' → a' ≤ j →
      M.entry a j = o.K - o.S * (factors c o).u ^ (j - a) * (factors c o).d ^ a →
      M.entry a' j = o.K - o.S * (factors c o).u ^ (j - a') * (factors c o).d ^ a' := by
  obtain ⟨p0, p1⟩ := prob_ok h hp
  obtain ⟨d0, hdu⟩ := factors_le c h
  obtain ⟨M, hM, he⟩ := tree_vf c o h.n hty false
  refine ⟨M, hM, fun j hj a a' haa ha' hx => ?_⟩
  rw [he j hj a (haa.trans ha')] at hx
  rw [he j hj a' ha']
  have hu := d0.trans hdu
  exact put_region (goodOp_bin (Df_nonneg _) p0 p1 _ _) (Df_le_one c h hr) (fun F => binOp_zero F)
    (binOp_nonneg (Df_nonneg _) p0 p1 _ _) _ (by positivity) (node_anti hS d0 hdu haa ha') hx

/-- **C113, tree matrix.** In every column of the matrix of an American call the entries above an exercised one are exercised. -/
theorem C113_tree_call (c : Cls) (o : Opt) (h : TreeValid o) (hp : ProbOK c o) (hty : o.type = "american") (hbr : o.b ≤ o.r)
    (hS : 0 ≤ o.S) :
    ∃ M, priceTree c o true = .ok M ∧ ∀ j ≤ o.n, ∀ a a', a' ≤ a → a ≤ j →
      M.entry a j = o.S * (factors c o).u ^ (j - a) * (factors c o).d ^ a - o.K →
      M.entry a' j = o.S * (factors c o).u ^ (j - a') * (factors c o).d ^ a' - o.K := by
  obtain ⟨d0, hdu⟩ := factors_le c h
  obtain ⟨M, hM, he⟩ := tree_vf c o h.n hty true
  refine ⟨M, hM, fun j hj a a' haa ha hx => ?_⟩
  rw [he j hj a ha] at hx
  rw [he j hj a' (haa.trans ha)]
  exact call_region (slope_factors c h hp hbr) _ (node_anti hS d0 hdu haa ha) hx

/-- **C113, trinomial tree.** -/
theorem C113_trinomial_put (o : Opt) (h : TreeValid o) (hp : |o.b| * √(o.t / o.n / 2) ≤ o.sigma) (hty : o.type = "american")
    (hr : 0 ≤ o.r) (S' : ℝ) (h0 : 0 ≤ S') (hS : S' ≤ o.S) (hx : price3 o false = .ok (o.K - o.S)) :
    price3 { o with S := S' } false = .ok (o.K - S') := by
  have h2 : TreeValid { o with n := 2 * o.n } := ⟨h.t, h.sigma, by show 0 < 2 * o.n; have := h.n; omega⟩
  have hdt : o.t / ((2 * o.n : ℕ) : ℝ) = o.t / o.n / 2 := by push_cast; field_simp
  obtain ⟨p0, p1⟩ := crr_prob h2 (by show |o.b| * √(o.t / ((2 * o.n : ℕ) : ℝ)) ≤ o.sigma; rwa [hdt])
  have h' : TreeValid { o with S := S' } := ⟨h.t, h.sigma, h.n⟩
  rw [price3_vf h hty] at hx
  have hx := Except.ok.inj hx
  rw [price3_vf h' hty]
  congr 1
  have g := goodOp_bin (Df_nonneg (o := { o with n := 2 * o.n }) .crr) p0 p1 (factors .crr { o with n := 2 * o.n }).u
    (factors .crr { o with n := 2 * o.n }).u⁻¹
  have z := binOp_nonneg (Df_nonneg (o := { o with n := 2 * o.n }) .crr) p0 p1 (factors .crr { o with n := 2 * o.n }).u
    (factors .crr { o with n := 2 * o.n }).u⁻¹
  have hD0 := Df_nonneg (o := { o with n := 2 * o.n }) .crr
  have hD1 := Df_le_one .crr h2 hr
  exact put_region (g.comp g) (D := (factors .crr { o with n := 2 * o.n }).Df * (factors .crr { o with n := 2 * o.n }).Df)
    (by nlinarith) (fun F => by simp only [binOp_zero, mul_assoc]) (fun f hf => z _ (z f hf)) o.n h0 hS hx

/-- **C113, trinomial tree.** -/
theorem C113_trinomial_call (o : Opt) (h : TreeValid o) (hp : |o.b| * √(o.t / o.n / 2) ≤ o.sigma) (hty : o.type = "american")
    (hbr : o.b ≤ o.r) (S' : ℝ) (hS : o.S ≤ S') (hx : price3 o true = .ok (o.S - o.K)) :
    price3 { o with S := S' } true = .ok (S' - o.K) := by
  have h2 : TreeValid { o with n := 2 * o.n } := ⟨h.t, h.sigma, by show 0 < 2 * o.n; have := h.n; omega⟩
  have hdt : o.t / ((2 * o.n : ℕ) : ℝ) = o.t / o.n / 2 := by push_cast; field_simp
  have hsl := slope_factors .crr h2 (fun _ => by show |o.b| * √(o.t / ((2 * o.n : ℕ) : ℝ)) ≤ o.sigma; rwa [hdt]) hbr
  rw [crr_d_inv] at hsl
  have h' : TreeValid { o with S := S' } := ⟨h.t, h.sigma, h.n⟩
  rw [price3_vf h hty] at hx
  have hx := Except.ok.inj hx
  rw [price3_vf h' hty]
  congr 1
  exact call_region (T := fun f => binOp _ _ _ _ (binOp _ _ _ _ f)) (fun F hF => hsl _ (hsl F hF)) o.n hS hx

/-- **C113, when.** An option that is worth no more than exercising it now has the spot on the proper side of the point where a
period's interest on the strike is the yield of the stock. -/
theorem C113_threshold (c : Cls) (hc : c = .crr ∨ c = .tian) (o : Opt) (h : TreeValid o) (hp : ProbOK c o)
    (hty : o.type = "american") :
    (price c o false = .ok (o.K - o.S) →
      o.S * (1 - exp ((o.b - o.r) * (o.t / o.n))) ≤ o.K * (1 - exp (-o.r * (o.t / o.n)))) ∧
    (price c o true = .ok (o.S - o.K) →
      o.K * (1 - exp (-o.r * (o.t / o.n))) ≤ o.S * (1 - exp ((o.b - o.r) * (o.t / o.n)))) := by
  obtain ⟨p0, p1⟩ := prob_ok h hp
  have hm : (factors c o).p * (factors c o).u + (1 - (factors c o).p) * (factors c o).d = exp (o.b * (o.t / o.n)) := by
    rcases hc with rfl | rfl
    · exact (good_crr h).mean
    · exact (good_tian h).mean
  have hDM : exp ((o.b - o.r) * (o.t / o.n)) = exp (-o.r * (o.t / o.n)) * exp (o.b * (o.t / o.n)) := by
    rw [← exp_add]; congr 1; ring
  have key : ∀ isCall, exp (-o.r * (o.t / o.n)) * (if isCall then o.S * exp (o.b * (o.t / o.n)) - o.K
      else o.K - o.S * exp (o.b * (o.t / o.n)))
      ≤ vf true isCall o.K (binOp (factors c o).Df (factors c o).p (factors c o).u (factors c o).d) o.n o.S := by
    intro isCall
    obtain ⟨k, hk⟩ : ∃ k, o.n = k + 1 := ⟨o.n - 1, by have := h.n; omega⟩
    rw [← hm, ← Df_eq c, hk, vf, if_pos rfl]
    refine le_trans ?_ (le_max_right _ _)
    refine le_trans (le_of_eq ?_) ((goodOp_bin (Df_nonneg c) p0 p1 _ _).mono _ _
      (fun s => vf_ge_intrinsic isCall o.K k s) o.S)
    cases isCall <;> simp only [binOp, intrinsic, if_true, Bool.false_eq_true, if_false] <;> ring
  constructor
  · intro hx
    have k := key false
    rw [price_vf (am := true) h.n hty] at hx
    rw [Except.ok.inj hx] at k
    simp only [Bool.false_eq_true, if_false] at k
    rw [hDM]; linarith
  · intro hx
    have k := key true
    rw [price_vf (am := true) h.n hty] at hx
    rw [Except.ok.inj hx] at k
    simp only [if_true] at k
    rw [hDM]; linarith

/-- A one-step CRR tree with factors `2` and `1/2`. -/
noncomputable def stepTree (S D M : ℝ) : Opt := ⟨S, 100, 1, -log D, log M, log 2, "american", 1⟩

theorem stepTree_price {S D M : ℝ} (hD : 0 < D) (hM : 0 < M) (isCall : Bool) :
    price .crr (stepTree S D M) isCall = .ok (max (intrinsic isCall S 100)
      (D * ((M - 1 / 2) / (3 / 2) * payoff isCall (S * 2) 100 + (1 - (M - 1 / 2) / (3 / 2)) * payoff isCall (S * (1 / 2)) 100))) := by
  rw [price_vf (o := stepTree S D M) (am := true) (by norm_num [stepTree]) rfl]
  have e1 : exp (log 2 * √((1 : ℝ) / ((1 : ℕ) : ℝ))) = 2 := by simp [exp_log]
  have e2 : exp (log M * ((1 : ℝ) / ((1 : ℕ) : ℝ))) = M := by simp [exp_log hM]
  have e3 : exp (-(-log D) * ((1 : ℝ) / ((1 : ℕ) : ℝ))) = D := by simp [exp_log hD]
  simp only [stepTree, vf, if_true, binOp, factors, e1, e2, e3]
  norm_num

/-- **C113 (scope), puts.** With a negative rate the exercise region need not reach down to `0`: here the put is exercised at
spot 45 but worth 165, not 90, at spot 10. -/
theorem C113_put_negative_rate : ∃ o : Opt, TreeValid o ∧ ProbOK .crr o ∧ o.type = "american" ∧ o.r < 0 ∧ o.S = 45 ∧
    price .crr o false = .ok (o.K - o.S) ∧ price .crr { o with S := 10 } false ≠ .ok (o.K - 10) := by
  refine ⟨stepTree 45 2 (7 / 4), ⟨by norm_num [stepTree], log_pos (by norm_num), by norm_num [stepTree]⟩, fun _ => ?_, rfl,
    by simp only [stepTree]; have := log_pos (show (1 : ℝ) < 2 by norm_num); linarith, rfl, ?_, ?_⟩
  · simp only [stepTree, Nat.cast_one, div_one, sqrt_one, mul_one]
    rw [abs_of_pos (log_pos (by norm_num))]
    exact log_le_log (by norm_num) (by norm_num)
  · rw [stepTree_price (by norm_num) (by norm_num)]
    norm_num [intrinsic, payoff, stepTree]
  · have : ({ stepTree 45 2 (7 / 4) with S := 10 } : Opt) = stepTree 10 2 (7 / 4) := rfl
    rw [this, stepTree_price (by norm_num) (by norm_num)]
    norm_num [intrinsic, payoff, stepTree]

/-- **C113 (scope), calls.** With a carry above the rate the exercise region of a call need not be a half-line: here the call is
exercised at spot 220 but not at spot 400. -/
theorem C113_call_high_carry : ∃ o : Opt, TreeValid o ∧ ProbOK .crr o ∧ o.type = "american" ∧ o.r < o.b ∧ o.S = 220 ∧
    price .crr o true = .ok (o.S - o.K) ∧ price .crr { o with S := 400 } true ≠ .ok (400 - o.K) := by
  refine ⟨stepTree 220 3 (4 / 7), ⟨by norm_num [stepTree], log_pos (by norm_num), by norm_num [stepTree]⟩, fun _ => ?_, rfl,
    ?_, rfl, ?_, ?_⟩
  · simp only [stepTree, Nat.cast_one, div_one, sqrt_one, mul_one]
    rw [abs_of_neg (log_neg (by norm_num) (by norm_num)), ← log_inv]
    exact log_le_log (by norm_num) (by norm_num)
  · simp only [stepTree]
    rw [← log_inv]
    exact log_lt_log (by norm_num) (by norm_num)
  · rw [stepTree_price (by norm_num) (by norm_num)]
    norm_num [intrinsic, payoff, stepTree]
  · have : ({ stepTree 220 3 (4 / 7) with S := 400 } : Opt) = stepTree 400 3 (4 / 7) := rfl
    rw [this, stepTree_price (by norm_num) (by norm_num)]
    norm_num [intrinsic, payoff, stepTree]

/-- A put that is exercised: spot 40, factors `2` and `1/2`, interest 100% and no carry. -/
example : price .crr (stepTree 40 (1 / 2) 1) false = .ok (100 - 40) ∧ 0 ≤ (stepTree 40 (1 / 2) 1).r := by
  constructor
  · rw [stepTree_price (by norm_num) (by norm_num)]
    norm_num [intrinsic, payoff]
  · simp only [stepTree]
    have := log_neg (show (0 : ℝ) < 1 / 2 by norm_num) (by norm_num)
    linarith

end Verif.Props
