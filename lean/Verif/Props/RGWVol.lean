import Verif.Spec.Solver
import Verif.Props.RGWAccuracy
import Verif.Lemmas.SmoothPut
import Verif.Props.ImpliedVol
import Verif.Lemmas.GBSRounding

/-! C101: implied volatility of the Roll–Geske–Whaley option. -/
namespace Verif.Props
open Verif Verif.Py Verif.Spec Real RGW

/-- **C101, without early exercise.** If exercising before the dividend cannot pay, the target of the solver is that of
`GBSOption` on the stock without the dividend, so the solver behaves as it does there. -/
theorem C101_european (o : RGW) (h : o.isCallOptimal = false) (solver : ℝ → ℝ → Solver) (price : ℝ)
    (x : Except PyErr ℝ) :
    Volatility solver o price x ↔
      Solver.Run (fun σ y => ∃ c, (GBS.new (o.S - o.D * exp (-o.r * o.td)) o.K o.t o.r o.r (some σ)).call = .ok c ∧
        y = .ok (price - c)) (solver (-10) 10) x := by
  have e : Target o price = (fun σ y => ∃ c,
      (GBS.new (o.S - o.D * exp (-o.r * o.td)) o.K o.t o.r o.r (some σ)).call = .ok c ∧ y = .ok (price - c)) := by
    funext σ y
    apply propext
    have h1 := (C36_european { o with sigma := some σ }).2
      (((C36_european { o with sigma := some σ }).1).2 ((C36_european o).1.1 h))
    unfold Target
    constructor
    · rintro ⟨z, hz, rfl⟩
      rw [h1] at hz
      subst hz
      exact ⟨_, rfl, rfl⟩
    · rintro ⟨c, hc, rfl⟩
      exact ⟨.ok c, (h1 _).2 hc.symm, rfl⟩
  unfold Volatility
  rw [e]

private theorem run_sound {f : ℝ → Except PyErr ℝ → Prop} {tol : ℝ} {s : Solver} {y : Except PyErr ℝ}
    (hr : Solver.Run f s y) : ∀ {seen : List (ℝ × ℝ)}, Sound tol seen s →
      (∀ p ∈ seen, f p.1 (.ok p.2)) → ∀ x, y = .ok x → ∃ v, f x (.ok v) ∧ |v| ≤ tol := by
  induction hr with
  | done =>
    intro seen hs hf x hx
    cases hs with
    | done hm hv => cases hx; exact ⟨_, hf _ hm, hv⟩
  | fail => intro _ _ _ x hx; cases hx
  | @ask x v k y hx _ ih =>
    intro seen hs hf z hz
    cases hs with
    | ask hk =>
      refine ih (hk v) ?_ z hz
      intro p hp
      rcases List.mem_cons.1 hp with rfl | hp
      · exact hx
      · exact hf p hp
  | raised _ => intro _ _ _ x hx; cases hx

/-- **C101, what is returned reprices.** A volatility returned by way of a solver that only returns points it found to
be roots up to `tol` reprices the option up to `tol`. -/
theorem C101_reprices (o : RGW) {tol price σ : ℝ} {solver : ℝ → ℝ → Solver} (hs : Sound tol [] (solver (-10) 10))
    (h : Volatility solver o price (.ok σ)) :
    ∃ c, Call { o with sigma := some σ } (.ok c) ∧ |price - c| ≤ tol := by
  obtain ⟨v, ⟨y, hy, hv⟩, ht⟩ := run_sound h hs (by simp) σ rfl
  cases y with
  | error e => cases hv
  | ok c =>
    have : v = price - c := by injection hv
    exact ⟨c, hy, this ▸ ht⟩

private theorem poly_le_small {k : ℝ} (h0 : 0 ≤ k) (h1 : k ≤ 0.634) : cndPoly k ≤ 0.515 := by
  have e1 : cndPoly k = k * (0.319381530 + k * (k * (1.781477937 - 1.821255978 * k + 1.330274429 * k ^ 2)
      - 0.356563782)) := by unfold cndPoly; ring
  have h2 : 1.781477937 - 1.821255978 * k + 1.330274429 * k ^ 2 ≤ 1.781477937 := by nlinarith
  have h3 : k * (1.781477937 - 1.821255978 * k + 1.330274429 * k ^ 2) ≤ 0.634 * 1.781477937 :=
    (mul_le_mul_of_nonneg_left h2 h0).trans (mul_le_mul_of_nonneg_right h1 (by norm_num))
  have h4 : k * (k * (1.781477937 - 1.821255978 * k + 1.330274429 * k ^ 2) - 0.356563782) ≤ 0.634 * 0.7729 := by
    refine (mul_le_mul_of_nonneg_left (by linarith :
      k * (1.781477937 - 1.821255978 * k + 1.330274429 * k ^ 2) - 0.356563782 ≤ 0.7729) h0).trans ?_
    exact mul_le_mul_of_nonneg_right h1 (by norm_num)
  rw [e1]
  refine (mul_le_mul_of_nonneg_left (by linarith : (0.319381530 : ℝ) + k * (k * (1.781477937 - 1.821255978 * k
    + 1.330274429 * k ^ 2) - 0.356563782) ≤ 0.8095) h0).trans ?_
  linarith

private theorem poly_le_big {k : ℝ} (h0 : 0 ≤ k) (h1 : k ≤ 1) : cndPoly k ≤ 3.44 := by
  unfold cndPoly
  have a2 : 0 ≤ k ^ 2 := by positivity
  have a4 : 0 ≤ k ^ 4 := by positivity
  have a3 : k ^ 3 ≤ 1 := pow_le_one₀ h0 h1
  have a5 : k ^ 5 ≤ 1 := pow_le_one₀ h0 h1
  linarith

private theorem one_sub_CND {x : ℝ} (hx : 0 < x) : 1 - CND x = φ x * cndPoly (cndK x) := by
  rw [← NDF_eq]
  unfold CND
  rw [npSign, if_neg (by linarith), if_neg hx.ne']
  ring

private theorem CND_neg' {x : ℝ} (hx : x < 0) : CND x = φ x * cndPoly (cndK x) := by
  rw [← NDF_eq]
  unfold CND
  rw [npSign, if_pos hx]
  ring

/-- At a volatility of 1000% and a quarter of a year after the dividend, keeping the option is worth more than
exercising it at every price below `1e8`. -/
theorem keep_at_ten {h K τ r D : ℝ} (hh : 0 < h) (hb : h < 1e8) (hK : 0 < K) (hτ : 1 / 4 ≤ τ) (hr : 0 ≤ r)
    (hKb : log (1e8 / K) + (r - 50) * τ ≤ 4 * √τ) (hD : D ≤ K / 10) :
    0 < gbsCallNum h K τ r r 10 - h - D + K := by
  have ht : 0 < τ := by linarith
  have hs : (1 / 2 : ℝ) ≤ √τ := le_sqrt_of_sq_le (by norm_num; linarith)
  have hss : √τ * √τ = τ := mul_self_sqrt ht.le
  have hid := density_identity (r := r) (b := r) hh hK ht (by norm_num : (0 : ℝ) < 10)
  rw [sub_self, zero_mul, exp_zero, mul_one] at hid
  have hK' : K * exp (-r * τ) ≤ K := mul_le_of_le_one_right hK.le (exp_le_one_iff.2 (by nlinarith))
  have hK0 : 0 < K * exp (-r * τ) := by positivity
  set K' := K * exp (-r * τ) with hK'def
  have e : gbsCallNum h K τ r r 10 = h * CND (D1 h K τ r 10) - K' * CND (D1 h K τ r 10 - 10 * √τ) := by
    unfold gbsCallNum
    rw [sub_self, zero_mul, exp_zero, mul_one]
    rfl
  have hd1 : D1 h K τ r 10 * (10 * √τ) = log (h / K) + (r + 50) * τ := by
    unfold D1 GBS.d1Expr
    rw [div_mul_cancel₀ _ (by positivity)]
    ring
  rw [e]
  set d1 := D1 h K τ r 10 with hd1def
  set d2 := d1 - 10 * √τ with hd2def
  -- it is enough to bound the exercise value lost
  suffices hmain : h * (1 - CND d1) + K' * CND d2 < 0.9 * K by linarith
  have hφd2 := φ_le d2
  have hφ0 := (φ_pos d2).le
  have fin : ∀ x y : ℝ, x + y ≤ 0.88 → K' * x + K' * y < 0.9 * K := by
    intro x y hxy
    have := mul_le_mul_of_nonneg_left hxy hK0.le
    linarith
  have prod : ∀ p P F : ℝ, φ d2 ≤ F → p ≤ P → 0 ≤ P → φ d2 * p ≤ F * P := fun p P F a c d =>
    (mul_le_mul_of_nonneg_left c hφ0).trans (mul_le_mul_of_nonneg_right a d)
  rcases le_or_gt d1 0 with h0 | h0
  · -- far below the strike
    have hlog : log (h / K) ≤ -12.5 := by nlinarith [mul_nonneg hr ht.le]
    have hh2 : h ≤ K * exp (-12.5) := by
      rw [← div_le_iff₀' hK]
      calc h / K = exp (log (h / K)) := (exp_log (by positivity)).symm
        _ ≤ _ := exp_le_exp.2 hlog
    have h5 : exp (-12.5 : ℝ) ≤ 1 / 13.5 := by
      rw [exp_neg, inv_eq_one_div]
      exact one_div_le_one_div_of_le (by norm_num) (by linarith [add_one_le_exp (12.5 : ℝ)])
    have hc1 : 1 - CND d1 ≤ 1 := by linarith [(CNDError.CND_mem d1).1]
    have hd2 : d2 < 0 := by linarith
    have hd2' : 12 ≤ d2 ^ 2 / 2 := by nlinarith
    have h6 : exp (-d2 ^ 2 / 2) ≤ 1 / 13 := by
      rw [neg_div, exp_neg, inv_eq_one_div]
      exact one_div_le_one_div_of_le (by norm_num) (by linarith [add_one_le_exp (d2 ^ 2 / 2)])
    have hc2 : CND d2 ≤ 0.2 := by
      rw [CND_neg' hd2]
      have h7 := prod _ _ _ (by linarith : φ d2 ≤ 0.04) (poly_le_big (cndK_mem d2).1.le (cndK_mem d2).2) (by norm_num)
      linarith
    have a1 : h * (1 - CND d1) ≤ h := mul_le_of_le_one_right hh.le hc1
    have a2 : K' * CND d2 ≤ K * 0.2 :=
      mul_le_mul hK' hc2 (CNDError.CND_mem d2).1.le hK.le
    have a3 := mul_le_mul_of_nonneg_left h5 hK.le
    linarith
  · have e2 : h * (1 - CND d1) = K' * (φ d2 * cndPoly (cndK d1)) := by
      rw [one_sub_CND h0, ← mul_assoc, hid]; ring
    rw [e2]
    rcases le_or_gt 2.5 d1 with h1 | h1
    · -- above the strike
      have hk1 : cndK d1 ≤ 0.634 := by
        unfold cndK
        rw [abs_of_pos h0, div_le_iff₀ (by linarith)]
        linarith
      have p1 := poly_le_small (cndK_mem d1).1.le hk1
      have hφ : φ d2 ≤ 0.4 := (φ_le_c d2).trans (by norm_num)
      have hd2 : d2 ≤ 0.4 := by
        have hl : log (h / K) ≤ log (1e8 / K) := log_le_log (by positivity) (by gcongr)
        have h7 : d2 * (10 * √τ) = log (h / K) + (r - 50) * τ := by
          rw [hd2def, sub_mul, hd1]; nlinarith
        have h8 : d2 * (10 * √τ) ≤ 0.4 * (10 * √τ) := by rw [h7]; linarith
        exact le_of_mul_le_mul_right h8 (by positivity)
      have hc2 : CND d2 ≤ 0.67 := by
        have a := abs_le.1 (CNDError.CND_error d2)
        have b := Φ_strictMono.monotone hd2
        have c := abs_le.1 (Φ_dist 0.4 0)
        have d : Φ 0 = 1 / 2 := by have := Φ_add_Φ_neg 0; rw [neg_zero] at this; linarith
        rw [sub_zero, abs_of_pos (by norm_num : (0 : ℝ) < 0.4), d] at c
        linarith [c.2]
      have h9 := prod _ _ _ hφ p1 (by norm_num)
      exact fin _ _ (by linarith)
    · -- between
      have hd2 : d2 < 0 := by linarith
      have hd2' : 3.125 ≤ d2 ^ 2 / 2 := by nlinarith
      have h6 : exp (-d2 ^ 2 / 2) ≤ 1 / 20 := by
        have h7 : exp (-d2 ^ 2 / 2) ≤ exp (-3.125) := exp_le_exp.2 (by linarith)
        have h8 : (20 : ℝ) ≤ exp 3.125 := by
          have e3 : exp (3.125 : ℝ) = exp 1 ^ 3 * exp 0.125 := by
            rw [← exp_nat_mul, ← exp_add]; norm_num
          have := exp_one_gt_d9
          have h9 : (19.6 : ℝ) ≤ exp 1 ^ 3 := by
            calc (19.6 : ℝ) ≤ 2.7 ^ 3 := by norm_num
              _ ≤ _ := pow_le_pow_left₀ (by norm_num) (by linarith) 3
          have h10 := add_one_le_exp (0.125 : ℝ)
          rw [e3]; nlinarith
        refine h7.trans ?_
        rw [exp_neg, inv_eq_one_div]
        exact one_div_le_one_div_of_le (by norm_num) h8
      have hφ : φ d2 ≤ 0.02 := by linarith
      have p1 := poly_le_big (cndK_mem d1).1.le (cndK_mem d1).2
      have p2 := poly_le_big (cndK_mem d2).1.le (cndK_mem d2).2
      rw [CND_neg' hd2]
      have h9 := prod _ _ _ hφ p1 (by norm_num)
      have h10 := prod _ _ _ hφ p2 (by norm_num)
      exact fin _ _ (by linarith)

/-- **C101 fails.** With a quarter of a year or more between dividend and expiry, a dividend of at most a tenth of the
strike and a strike that is not tiny, `call()` at the upper end of the bracket (a volatility of 10) raises
`ValueError` and nothing else. -/
theorem C101_upper_end (o : RGW) (hS : 0 < o.S) (hK : 0 < o.K) (hr : 0 ≤ o.r) (hτ : 1 / 4 ≤ o.t - o.td)
    (hopt : o.isCallOptimal = true) (hD : o.D ≤ o.K / 10)
    (hKb : log (1e8 / o.K) + (o.r - 50) * (o.t - o.td) ≤ 4 * √(o.t - o.td))
    (hn : ∀ n : ℕ, o.S * 2 ^ n ≠ 1e8) (x : Except PyErr ℝ) :
    Call { o with sigma := some 10 } x ↔ x = .error .valueError := by
  obtain ⟨y, hy, hu, -⟩ := C35_call_total { o with sigma := some 10 } hS
  have hnot : ¬ o.D ≤ o.K * (1 - exp (-o.r * (o.t - o.td))) := by
    intro h
    rw [(C36_european o).1.2 h] at hopt
    exact absurd hopt (by simp)
  have key : Call { o with sigma := some 10 } (.error .valueError) := by
    unfold Call
    simp only [if_neg hnot]
    obtain ⟨h, hd⟩ := doubling_terminates (fun s => gbsCallNum s o.K (o.t - o.td) o.r o.r 10) hS o.D o.K
    refine ⟨_, .tooHigh hd ?_, rfl⟩
    have hx := hd.exit
    have hp : (∃ n : ℕ, h = o.S * 2 ^ n) ∧ 0 < h := by
      refine ⟨Loop.inv (P := fun h => ∃ n : ℕ, h = o.S * 2 ^ n) ?_ hd ⟨0, by simp⟩,
        Loop.inv (P := fun h => 0 < h) (fun s hs _ => by simpa using hs) hd hS⟩
      rintro s ⟨n, rfl⟩ _
      exact ⟨n + 1, by ring⟩
    obtain ⟨⟨n, hn'⟩, hp⟩ := hp
    have hbig : RGW.big = 1e8 := by norm_num [RGW.big]
    rw [hbig] at hx ⊢
    rcases lt_trichotomy h 1e8 with hlt | heq | hgt
    · exact absurd ⟨keep_at_ten hp hlt hK hτ hr hKb hD, hlt⟩ hx
    · exact absurd (hn' ▸ heq) (hn n)
    · exact hgt
  rw [← hu _ key] at hu
  constructor
  · intro h; exact hu x h
  · rintro rfl; exact key

/-- **C101 fails.** For such a contract `volatility(price)` raises `ValueError` whatever the price, for every solver
that begins by evaluating its target at the ends of the bracket `[-10, 10]`. -/
theorem C101_raises (o : RGW) (hS : 0 < o.S) (hK : 0 < o.K) (hr : 0 ≤ o.r) (hτ : 1 / 4 ≤ o.t - o.td)
    (hopt : o.isCallOptimal = true) (hD : o.D ≤ o.K / 10)
    (hKb : log (1e8 / o.K) + (o.r - 50) * (o.t - o.td) ≤ 4 * √(o.t - o.td))
    (hn : ∀ n : ℕ, o.S * 2 ^ n ≠ 1e8) {solver : ℝ → ℝ → Solver} (hs : ChecksEnds solver) (price : ℝ)
    (x : Except PyErr ℝ) :
    Volatility solver o price x ↔ x = .error .valueError := by
  have hup := C101_upper_end o hS hK hr hτ hopt hD hKb hn
  have hten : ∀ y, Target o price 10 y ↔ y = .error .valueError := by
    intro y
    constructor
    · rintro ⟨z, hz, rfl⟩
      rw [(hup z).1 hz]; rfl
    · rintro rfl
      exact ⟨_, (hup _).2 rfl, rfl⟩
  obtain ⟨k, hk⟩ := hs (-10) 10
  obtain ⟨y, hy, hu, hyc⟩ := C35_call_total { o with sigma := some (-10) } hS
  unfold Volatility
  rw [hk]
  have hlow : ∀ y e, Target o price (-10) y → y = .error e → e = .valueError := by
    rintro y' e ⟨z, hz, rfl⟩ he
    rw [hu z hz] at he
    rcases hyc with ⟨v, rfl⟩ | rfl
    · cases he
    · injection he with he; exact he.symm
  constructor
  · intro h
    cases h with
    | ask _ h2 =>
      cases h2 with
      | ask h3 _ => cases (hten _).1 h3
      | raised h3 => exact (hten _).1 h3
    | raised h1 => rw [hlow _ _ h1 rfl]
  · rintro rfl
    rcases hyc with ⟨v, rfl⟩ | rfl
    · exact .ask (v := price - v) ⟨_, hy, rfl⟩ (.raised ((hten _).2 rfl))
    · exact .raised ⟨_, hy, rfl⟩

/-- C101, a case: strike and spot 100, expiry in half a year, a dividend of 4 in a quarter, interest 6%. The solver may
be bisection, the secant method, or anything else that looks at both ends. -/
theorem C101_example (price : ℝ) (k : ℝ → ℝ → ℝ → ℝ → Solver) (σ₀ : Option ℝ) (x : Except PyErr ℝ) :
    Volatility (fun lo hi => .ask lo fun u => .ask hi fun v => k lo hi u v) ⟨100, 100, 1 / 2, 1 / 4, 0.06, 4, σ₀⟩ price x ↔
      x = .error .valueError := by
  have hlog : log (1e8 / 100 : ℝ) ≤ 14 := by
    rw [log_le_iff_le_exp (by norm_num)]
    have e3 : exp (14 : ℝ) = exp 1 ^ 14 := by rw [← exp_nat_mul]; norm_num
    have := exp_one_gt_d9
    rw [e3]
    calc (1e8 / 100 : ℝ) ≤ 2.7 ^ 14 := by norm_num
      _ ≤ _ := pow_le_pow_left₀ (by norm_num) (by linarith) 14
  refine C101_raises _ (by norm_num) (by norm_num) (by norm_num) (by norm_num) ?_ (by norm_num) ?_ ?_
    (fun lo hi => ⟨_, rfl⟩) price x
  · by_contra hc
    rw [Bool.not_eq_true] at hc
    have h1 := (C36_european _).1.1 hc
    simp only at h1
    have := add_one_le_exp (-0.06 * (1 / 2 - 1 / 4) : ℝ)
    linarith
  · simp only
    have : (1 / 2 : ℝ) ≤ √(1 / 2 - 1 / 4) := le_sqrt_of_sq_le (by norm_num)
    linarith
  · intro n h
    simp only at h
    have h1 : (2 : ℝ) ^ n = 1000000 := by norm_num at h ⊢; linarith
    have h2 : (2 : ℕ) ^ n = 1000000 := by exact_mod_cast h1
    have h3 : (5 : ℕ) ∣ 2 ^ n := by rw [h2]; norm_num
    exact absurd (Nat.Prime.dvd_of_dvd_pow Nat.prime_five h3) (by norm_num)

open Classical in
/-- A solver that tries one point. -/
noncomputable def onePoint (tol x : ℝ) : Solver := .ask x fun v => if |v| ≤ tol then .done x else .fail .valueError

/-- C101, a case with a result: without dividend the price at a volatility of 30% is explained by that volatility. -/
theorem C101_reprices_example : Sound 1e-9 [] (onePoint 1e-9 0.3) ∧
    ∃ price, Volatility (fun _ _ => onePoint 1e-9 0.3) ⟨100, 90, 1, 1 / 2, 0.1, 0, none⟩ price (.ok 0.3) := by
  refine ⟨.ask fun v => ?_, ?_⟩
  · split_ifs with h
    · exact .done (List.mem_cons_self ..) h
    · exact .fail
  · have hopt : RGW.isCallOptimal ⟨100, 90, 1, 1 / 2, 0.1, 0, none⟩ = false := by
      rw [(C36_european _).1]
      have : exp (-0.1 * (1 - 1 / 2)) ≤ 1 := exp_le_one_iff.2 (by norm_num)
      simp only
      nlinarith
    obtain ⟨c, hc⟩ := gbs_call_ok (100 - 0 * exp (-0.1 * (1 / 2))) 90 1 0.1 0.1 0.3
    refine ⟨c, ?_⟩
    rw [C101_european _ hopt]
    refine .ask (v := c - c) ⟨c, hc, rfl⟩ ?_
    rw [sub_self, if_pos (by norm_num)]
    exact .done

end Verif.Props
