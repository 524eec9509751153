import Verif.Lemmas.MCFl

/-!
C136 — Monte Carlo results that are not numbers.  The loop reports an average that is `+inf`; an average that is `nan` goes
into the result like a price.
-/
namespace Verif.Props
open MCFl
open Fl (num pinf ninf nan)
open MC (Opt Kind)

/-- **C136 (what is reported).** For all contracts and all innovations, infinite ones and `nan` included: if no loop
has a `+inf` and no `nan` among its payoffs, the result is an array with one entry per loop, and a loop without paths or with
a `nan` among its payoffs has the entry `nan`; every other entry is a number. Otherwise the data of the first loop that has a
`+inf` and no `nan` among its payoffs are returned. -/
theorem C136_reported (k : Kind) (o : Opt) (call : Bool) (sample : ℕ → Rows) :
    ((∀ i < o.loops, pinf ∈ payoff k o call (prep o.anti o.stand (sample i)) →
        nan ∈ payoff k o call (prep o.anti o.stand (sample i))) →
      ∃ l, run k o call sample = .ok l ∧ l.length = o.loops ∧ ∀ i (hi : i < l.length),
        ((payoff k o call (prep o.anti o.stand (sample i)) = [] ∨ nan ∈ payoff k o call (prep o.anti o.stand (sample i))) →
          l[i] = nan) ∧
        (¬ (payoff k o call (prep o.anti o.stand (sample i)) = [] ∨
          nan ∈ payoff k o call (prep o.anti o.stand (sample i))) → ∃ x, 0 ≤ x ∧ l[i] = num x)) ∧
    (∀ i < o.loops, pinf ∈ payoff k o call (prep o.anti o.stand (sample i)) →
      nan ∉ payoff k o call (prep o.anti o.stand (sample i)) →
      (∀ j < i, pinf ∈ payoff k o call (prep o.anti o.stand (sample j)) →
        nan ∈ payoff k o call (prep o.anti o.stand (sample j))) →
      run k o call sample = .error (prep o.anti o.stand (sample i), payoff k o call (prep o.anti o.stand (sample i)))) := by
  have cls : ∀ i, (pinf ∈ payoff k o call (prep o.anti o.stand (sample i)) →
        nan ∈ payoff k o call (prep o.anti o.stand (sample i))) →
      ((payoff k o call (prep o.anti o.stand (sample i)) = [] ∨ nan ∈ payoff k o call (prep o.anti o.stand (sample i))) →
        mean (payoff k o call (prep o.anti o.stand (sample i))) = nan) ∧
      (¬ (payoff k o call (prep o.anti o.stand (sample i)) = [] ∨
        nan ∈ payoff k o call (prep o.anti o.stand (sample i))) →
        ∃ x, 0 ≤ x ∧ mean (payoff k o call (prep o.anti o.stand (sample i))) = num x) := by
    intro i h
    have nn := payoff_ninf k o call (prep o.anti o.stand (sample i))
    have pos : ∀ x, num x ∈ payoff k o call (prep o.anti o.stand (sample i)) → 0 ≤ x := by
      intro x hx
      obtain ⟨path, -, e⟩ := List.mem_map.1 hx
      rcases pay_cases (-o.r * o.t) (if call then price k o path - num o.K else num o.K - price k o path) with
        ⟨y, hy, hx⟩ | ⟨-, hx⟩ | ⟨-, hx⟩ <;> rw [hx] at e <;> cases e
      exact hy
    generalize payoff k o call (prep o.anti o.stand (sample i)) = p at h nn pos ⊢
    constructor
    · rintro (rfl | h')
      · exact mean_nil
      · exact mean_nan h'
    · intro h'
      rw [not_or] at h'
      obtain ⟨z, rfl⟩ := (sum_class nn h'.2).2 (fun hp => h'.2 (h hp))
      have hz : z ≠ [] := by rintro rfl; exact h'.1 rfl
      refine ⟨_, ?_, mean_num hz⟩
      have : 0 ≤ z.sum := List.sum_nonneg fun x hx => pos x (List.mem_map_of_mem hx)
      unfold MC.mean
      positivity
  have notInf : ∀ i, (pinf ∈ payoff k o call (prep o.anti o.stand (sample i)) →
        nan ∈ payoff k o call (prep o.anti o.stand (sample i))) →
      isInf (mean (payoff k o call (prep o.anti o.stand (sample i)))) = false := by
    intro i h
    obtain ⟨c1, c2⟩ := cls i h
    by_cases hc : payoff k o call (prep o.anti o.stand (sample i)) = [] ∨
        nan ∈ payoff k o call (prep o.anti o.stand (sample i))
    · rw [c1 hc]; rfl
    · obtain ⟨x, -, hx⟩ := c2 hc
      rw [hx]; rfl
  refine ⟨fun h => ?_, fun i hi hp hn hj => ?_⟩
  · refine ⟨_, MC.sim_ok _ _ _ _ _ _ _ fun i hi => notInf i (h i hi), by simp, fun i hi => ?_⟩
    rw [List.length_map, List.length_range] at hi
    simp only [List.getElem_map, List.getElem_range]
    exact cls i (h i hi)
  · refine MC.sim_inf _ _ _ _ _ _ _ hi (fun j hj' => notInf j (hj j hj')) ?_
    rw [mean_pinf (payoff_ninf _ _ _ _) hn hp]
    rfl

/-- **C136 (inside the domain).** For finite innovations, at least one path per loop, a maturity that is not negative and, if
innovations are standardised, innovations that are not all equal, the result is the one of the model over the reals
(the subject of C43, C45, C61, C62, C83, C84). -/
theorem C136_agrees (k : Kind) {loops n : ℕ} {S K t r b σ : ℝ} {anti stand tr : Bool} {o : Opt}
    (ho : MC.new loops n S K t r b σ anti stand tr = .ok o) (ht : 0 ≤ t) (call : Bool) (z : ℕ → MC.Rows)
    (hz : ∀ i, z i ≠ []) (hr : ∀ i, ∀ row ∈ z i, row ≠ [])
    (hs : stand = true → ∀ i, MC.std (drawn anti (z i)).flatten ≠ 0) :
    ∃ l, MC.price k o call z = .ok l ∧ run k o call (fun i => embed (z i)) = .ok (l.map num) := by
  have hn : n ≠ 0 := by rintro rfl; simp [MC.new] at ho
  rw [MC.new, if_neg hn] at ho
  obtain rfl := Except.ok.inj ho
  refine ⟨_, MC.sim_ok _ _ _ _ _ _ _ fun _ _ => rfl, ?_⟩
  have hdt : (0 : ℝ) ≤ t / n := by positivity
  have key : ∀ i, mean (payoff k ⟨loops, t / n, S, K, t, r, b, σ, anti, stand, tr⟩ call (prep anti stand (embed (z i))))
      = num (MC.mean (MC.payoff k ⟨loops, t / n, S, K, t, r, b, σ, anti, stand, tr⟩ call (MC.prep anti stand (z i)))) := by
    intro i
    rw [prep_num anti stand fun h => ⟨flatten_ne (drawn_ne (hz i)) (drawn_rows (hr i)), hs h i⟩,
      payoff_num k call hdt (prep_rows (hr i)), mean_num]
    have := drawn_ne (anti := anti) (hz i)
    rw [prep_eq]
    cases stand <;> simp [MC.payoff, MC.wiener, MC.standardize, this]
  unfold run
  rw [MC.sim_ok _ _ _ _ _ _ _ fun i _ => by rw [key i]; rfl]
  simp only [key, List.map_map]
  rfl

/-- **C136 (no paths), refuted.** With no paths every entry of the result is `nan`. -/
theorem C136_empty_fails (k : Kind) (o : Opt) (call : Bool) :
    run k o call (fun _ => []) = .ok (List.replicate o.loops nan) := by
  refine all_nan k o call _ fun i => ?_
  have : prep o.anti o.stand [] = [] := by
    unfold prep antithetic standardize
    cases o.anti <;> cases o.stand <;> rfl
  rw [this]
  exact mean_nil

/-- **C136 (after expiry), refuted.** With a negative maturity every entry of the result is `nan`, whatever the innovations
(of a nonempty path), and neither an exception nor the warning for infinite results is raised. -/
theorem C136_late_fails (k : Kind) {loops n : ℕ} {S K t r b σ : ℝ} {anti stand tr : Bool} {o : Opt}
    (ho : MC.new loops n S K t r b σ anti stand tr = .ok o) (ht : t < 0) (call : Bool) (sample : ℕ → Rows)
    (hs : ∀ i, ∃ row ∈ sample i, row ≠ []) :
    run k o call sample = .ok (List.replicate loops nan) := by
  have hn : n ≠ 0 := by rintro rfl; simp [MC.new] at ho
  rw [MC.new, if_neg hn] at ho
  obtain rfl := Except.ok.inj ho
  refine all_nan k _ call _ fun i => ?_
  obtain ⟨row, hrow, hne⟩ := hs i
  obtain ⟨row, hrow, hne⟩ := prep_ne (anti := anti) (stand := stand) hrow hne
  obtain ⟨x, hx⟩ := List.exists_mem_of_ne_nil row hne
  have hdt : t / n < 0 := div_neg_of_neg_of_pos ht (by positivity)
  obtain ⟨r', h1, h2⟩ := wiener_mem ⟨loops, t / n, S, K, t, r, b, σ, anti, stand, tr⟩ hrow hx (by
    simp only
    rw [Fl.sqrt_neg hdt, Fl.mul_nan, Fl.nan_mul, Fl.add_nan])
  exact loop_nan k _ call h1 h2

/-- **C136 (equal innovations), refuted.** Standardising innovations that are all equal divides by zero: every entry of
the result is `nan`. One path of one step without antithetic paths is such a sample, whatever the innovation. -/
theorem C136_constant_fails (k : Kind) {o : Opt} (hst : o.stand = true) (call : Bool) (z : ℕ → MC.Rows)
    (hz : ∀ i, ∃ row ∈ z i, row ≠ []) (hc : ∀ i, ∃ c, ∀ x ∈ (drawn o.anti (z i)).flatten, x = c) :
    run k o call (fun i => embed (z i)) = .ok (List.replicate o.loops nan) := by
  refine all_nan k o call _ fun i => ?_
  obtain ⟨row, hrow, hne⟩ := hz i
  obtain ⟨c, hc⟩ := hc i
  have hrow' : row ∈ drawn o.anti (z i) := by
    unfold drawn
    cases o.anti
    · exact hrow
    · exact List.mem_append.2 (.inl hrow)
  set d := drawn o.anti (z i) with hd
  have fl : d.flatten = List.replicate d.flatten.length c := List.eq_replicate_iff.2 ⟨rfl, hc⟩
  obtain ⟨x, hx⟩ := List.exists_mem_of_ne_nil row hne
  have hxf : x ∈ d.flatten := List.mem_flatten.2 ⟨row, hrow', hx⟩
  have hl : d.flatten.length ≠ 0 := by
    intro h
    rw [List.length_eq_zero_iff.1 h] at hxf
    simp at hxf
  have hfne : d.flatten ≠ [] := fun h => hl (by rw [h]; rfl)
  have hm : MC.mean d.flatten = c := by rw [fl]; exact mean_replicate hl c
  have hsd : MC.std d.flatten = 0 := by
    unfold MC.std
    rw [hm]
    have : d.flatten.map (fun x => (x - c) ^ 2) = List.replicate d.flatten.length 0 := by
      rw [fl, List.map_replicate, List.length_replicate]; simp
    rw [this, mean_replicate hl, Real.sqrt_zero]
  have hp : prep o.anti o.stand (embed (z i)) = (embed d).map fun row => row.map fun x =>
      (x - num c) / num 0 := by
    unfold prep
    simp only [drawn_num, hst, if_true, ← hd]
    unfold standardize
    rw [embed_flatten, std_num hfne, mean_num hfne, hm, hsd]
  rw [hp]
  have hxc := hc x hxf
  obtain ⟨r', h1, h2⟩ := wiener_mem o
    (eps := (embed d).map fun row => row.map fun x => (x - num c) / num 0)
    (row := (row.map num).map fun x => (x - num c) / num 0) (x := nan)
    (List.mem_map.2 ⟨_, List.mem_map.2 ⟨row, hrow', rfl⟩, rfl⟩)
    (List.mem_map.2 ⟨num x, List.mem_map.2 ⟨x, hx, rfl⟩, by
      rw [hxc, Fl.num_sub, sub_self]
      show num 0 * (if (0 : ℝ) = 0 then pinf else _) = nan
      rw [if_pos rfl]
      show Fl.signed 0 = nan
      simp [Fl.signed]⟩)
    (by rw [Fl.mul_nan, Fl.add_nan])
  exact loop_nan k o call h1 h2

/-- **C136 (infinite innovations and standardisation), refuted.** If innovations are standardised and one of them is
infinite in every loop, every entry of the result is `nan`. -/
theorem C136_standardised_infinite_fails (k : Kind) {o : Opt} (hst : o.stand = true) (call : Bool) (sample : ℕ → Rows)
    (h : ∀ i, ∃ row ∈ sample i, ∃ x ∈ row, x = pinf ∨ x = ninf) :
    run k o call sample = .ok (List.replicate o.loops nan) := by
  refine all_nan k o call _ fun i => ?_
  obtain ⟨row, hrow, x, hx, hinf⟩ := h i
  have hu : row ∈ (if o.anti then antithetic (sample i) else sample i) := by
    cases o.anti
    · exact hrow
    · exact List.mem_append.2 (.inl hrow)
  have hp : prep o.anti o.stand (sample i) = standardize (if o.anti then antithetic (sample i) else sample i) := by
    unfold prep; rw [hst]; rfl
  rw [hp]
  generalize (if o.anti then antithetic (sample i) else sample i) = u at hu
  have hsd : std u.flatten = nan :=
    std_nonfinite (List.mem_flatten.2 ⟨row, hu, hx⟩) (by rintro y rfl; rcases hinf with e | e <;> cases e)
  obtain ⟨r', h1, h2⟩ := wiener_mem o (eps := standardize u)
    (row := row.map fun x => (x - mean u.flatten) / std u.flatten) (x := nan)
    (List.mem_map.2 ⟨row, hu, rfl⟩) (List.mem_map.2 ⟨x, hx, by rw [hsd, Fl.div_nan]⟩)
    (by rw [Fl.mul_nan, Fl.add_nan])
  exact loop_nan k o call h1 h2

/-- **C136 (innovations of opposite sign), refuted.** A path with innovations `+inf` and `-inf` makes the entry of its
loop `nan`. -/
theorem C136_opposite_fails (k : Kind) {loops n : ℕ} {S K t r b σ : ℝ} {anti tr : Bool} {o : Opt}
    (ho : MC.new loops n S K t r b σ anti false tr = .ok o) (ht : 0 < t) (hσ : 0 < σ) (call : Bool) (sample : ℕ → Rows)
    (h : ∀ i, ∃ row ∈ sample i, pinf ∈ row ∧ ninf ∈ row) :
    run k o call sample = .ok (List.replicate loops nan) := by
  have hn : n ≠ 0 := by rintro rfl; simp [MC.new] at ho
  rw [MC.new, if_neg hn] at ho
  obtain rfl := Except.ok.inj ho
  refine all_nan k _ call _ fun i => ?_
  obtain ⟨row, hrow, h1, h2⟩ := h i
  have hu : row ∈ prep anti false (sample i) := by
    unfold prep
    cases anti
    · exact hrow
    · exact List.mem_append.2 (.inl hrow)
  have hdt : (0 : ℝ) < t / n := by positivity
  have hpos : 0 < σ * √(t / n) := mul_pos hσ (Real.sqrt_pos.2 hdt)
  refine mean_nan (List.mem_map.2 ⟨_, List.mem_map.2 ⟨row, hu, rfl⟩, ?_⟩)
  have e1 : num ((b - σ ^ 2 / 2) * (t / n)) + num σ * Fl.sqrt (num (t / n)) * pinf = pinf := by
    rw [Fl.num_sqrt hdt.le, Fl.num_mul]
    show _ + Fl.signed _ = _
    rw [Fl.signed, if_pos hpos]; rfl
  have e2 : num ((b - σ ^ 2 / 2) * (t / n)) + num σ * Fl.sqrt (num (t / n)) * ninf = ninf := by
    rw [Fl.num_sqrt hdt.le, Fl.num_mul]
    show _ + Fl.signed _ = _
    rw [Fl.signed, if_neg (by linarith), if_pos (by linarith)]; rfl
  have hs := sum_nan_of (l := row.map fun e => num ((b - σ ^ 2 / 2) * (t / n)) + num σ * Fl.sqrt (num (t / n)) * e)
    (List.mem_map.2 ⟨pinf, h1, e1⟩) (List.mem_map.2 ⟨ninf, h2, e2⟩)
  rw [price_sum_nan k _ (by simpa using List.ne_nil_of_mem h1) hs]
  cases call <;> rfl

/-- **C136 (an innovation `+inf` is reported by calls).** Innovations are numbers or `+inf` and in the first loop one of them is
`+inf` (a Sobol point with a coordinate 1): a call returns the data of that loop instead of prices. -/
theorem C136_infinite_call (k : Kind) {loops n : ℕ} {S K t r b σ : ℝ} {tr : Bool} {o : Opt}
    (ho : MC.new loops n S K t r b σ false false tr = .ok o) (hl : 0 < loops) (hS : 0 < S) (ht : 0 < t) (hσ : 0 < σ)
    (sample : ℕ → Rows) (hne : ∀ row ∈ sample 0, row ≠ []) (hf : ∀ row ∈ sample 0, ∀ x ∈ row, x = pinf ∨ ∃ y, x = num y)
    (h : ∃ row ∈ sample 0, pinf ∈ row) :
    ∃ payoffs, run k o true sample = .error (sample 0, payoffs) ∧ payoffs.length = (sample 0).length ∧ pinf ∈ payoffs := by
  have hn : n ≠ 0 := by rintro rfl; simp [MC.new] at ho
  rw [MC.new, if_neg hn] at ho
  obtain rfl := Except.ok.inj ho
  have hdt : (0 : ℝ) < t / n := by positivity
  have hpos : 0 < σ * √(t / n) := mul_pos hσ (Real.sqrt_pos.2 hdt)
  set o : Opt := ⟨loops, t / n, S, K, t, r, b, σ, false, false, tr⟩ with ho'
  have e1 : num ((o.b - o.sigma ^ 2 / 2) * o.dt) + num o.sigma * Fl.sqrt (num o.dt) * pinf = pinf := by
    simp only [ho']
    rw [Fl.num_sqrt hdt.le, Fl.num_mul]
    show _ + Fl.signed _ = _
    rw [Fl.signed, if_pos hpos]; rfl
  have e3 : ∀ y, ∃ y', num ((o.b - o.sigma ^ 2 / 2) * o.dt) + num o.sigma * Fl.sqrt (num o.dt) * num y = num y' := by
    intro y
    simp only [ho']
    rw [Fl.num_sqrt hdt.le]
    exact ⟨_, rfl⟩
  have rows : ∀ path ∈ wiener o (sample 0), path ≠ [] ∧ ∀ x ∈ path, x = pinf ∨ ∃ y, x = num y := by
    intro path hp
    obtain ⟨row, hrow, rfl⟩ := List.mem_map.1 hp
    refine ⟨by simpa using hne row hrow, fun x hx => ?_⟩
    obtain ⟨y, hy, rfl⟩ := List.mem_map.1 hx
    rcases hf row hrow y hy with rfl | ⟨u, rfl⟩
    · exact .inl e1
    · exact .inr (e3 u)
  have hpr : prep o.anti o.stand (sample 0) = sample 0 := rfl
  have pay : ∀ path ∈ wiener o (sample 0), (pinf ∈ path → price k o path = pinf) ∧
      (pinf ∉ path → ∃ y, price k o path = num y) := by
    intro path hp
    obtain ⟨h1, h2⟩ := rows path hp
    refine ⟨price_pinf k hS h2, fun hh => ?_⟩
    have : ∃ z : List ℝ, path = z.map num := by
      refine (sum_class ?_ ?_).2 hh
      · intro hx; rcases h2 _ hx with e | ⟨y, e⟩ <;> cases e
      · intro hx; rcases h2 _ hx with e | ⟨y, e⟩ <;> cases e
    obtain ⟨z, rfl⟩ := this
    exact ⟨_, price_num k o (by rintro rfl; exact h1 rfl)⟩
  have ex : Real.exp (-o.r * o.t) > 0 := Real.exp_pos _
  have hp : pinf ∈ payoff k o true (sample 0) := by
    obtain ⟨row, hrow, hx⟩ := h
    have hw : (row.map fun e => num ((o.b - o.sigma ^ 2 / 2) * o.dt) + num o.sigma * Fl.sqrt (num o.dt) * e)
        ∈ wiener o (sample 0) := List.mem_map.2 ⟨row, hrow, rfl⟩
    refine List.mem_map.2 ⟨_, hw, ?_⟩
    rw [(pay _ hw).1 (List.mem_map.2 ⟨pinf, hx, e1⟩)]
    show Fl.signed _ = pinf
    exact if_pos ex
  have hna : nan ∉ payoff k o true (sample 0) := by
    intro hh
    obtain ⟨path, hw, e⟩ := List.mem_map.1 hh
    by_cases hx : pinf ∈ path
    · rw [(pay _ hw).1 hx] at e
      have : Fl.signed (Real.exp (-o.r * o.t)) = nan := e
      rw [Fl.signed, if_pos ex] at this
      cases this
    · obtain ⟨y, hy⟩ := (pay _ hw).2 hx
      rw [hy] at e
      cases e
  refine ⟨payoff k o true (sample 0), ?_, by simp [payoff, wiener], hp⟩
  have := (C136_reported k o true sample).2 0 hl (by rw [hpr]; exact hp) (by rw [hpr]; exact hna)
    (fun j hj => absurd hj (by omega))
  rwa [hpr] at this

/-- **C136 (puts are never reported).** For a nonnegative spot a put always returns an array, whatever the innovations. -/
theorem C136_put_array (k : Kind) {o : Opt} (hS : 0 ≤ o.S) (sample : ℕ → Rows) :
    ∃ l, run k o false sample = .ok l ∧ l.length = o.loops := by
  obtain ⟨l, h1, h2, -⟩ := (C136_reported k o false sample).1 (fun i _ hp => by
    obtain ⟨path, -, e⟩ := List.mem_map.1 hp
    simp only [Bool.false_eq_true, if_false] at e
    rcases pay_cases (-o.r * o.t) (num o.K - price k o path) with ⟨x, -, hx⟩ | ⟨hy, -⟩ | ⟨-, hx⟩
    · rw [hx] at e; cases e
    · have hpn := price_ne_ninf k hS path
      cases hc : price k o path with
      | ninf => exact absurd hc hpn
      | _ => rw [hc] at hy; cases hy
    · rw [hx] at e; cases e)
  exact ⟨l, h1, h2⟩

/-! ### The last day and no volatility -/

/-- **C136 (today).** On its last day the option pays its exercise value, whatever the (finite) innovations. -/
theorem C136_today (k : Kind) {loops n : ℕ} {S K r b σ : ℝ} {anti stand tr : Bool} {o : Opt}
    (ho : MC.new loops n S K 0 r b σ anti stand tr = .ok o) (call : Bool) (z : ℕ → MC.Rows)
    (hz : ∀ i, z i ≠ []) (hr : ∀ i, ∀ row ∈ z i, row ≠ [])
    (hs : stand = true → ∀ i, MC.std (drawn anti (z i)).flatten ≠ 0) :
    run k o call (fun i => embed (z i))
      = .ok (List.replicate loops (num (if call then max (S - K) 0 else max (K - S) 0))) := by
  obtain ⟨l, h1, h2⟩ := C136_agrees k ho le_rfl call z hz hr hs
  have hn : n ≠ 0 := by rintro rfl; simp [MC.new] at ho
  rw [MC.new, if_neg hn] at ho
  obtain rfl := Except.ok.inj ho
  rw [h2]
  unfold MC.price at h1
  rw [MC.sim_ok _ _ _ _ _ _ _ fun _ _ => rfl] at h1
  obtain rfl := Except.ok.inj h1
  congr 1
  rw [List.map_map]
  refine List.eq_replicate_iff.2 ⟨by simp, fun x hx => ?_⟩
  obtain ⟨i, -, rfl⟩ := List.mem_map.1 hx
  simp only [Function.comp]
  congr 1
  set e := MC.prep anti stand (z i) with he
  have hrow : ∀ row ∈ e, row ≠ [] := prep_rows (hr i)
  have hne : e ≠ [] := by
    rw [he, prep_eq]
    have := drawn_ne (anti := anti) (hz i)
    cases stand <;> simp [MC.standardize, this]
  have cz : ∀ (l : List ℝ), (∀ x ∈ l, x = 0) → ∀ u ∈ MC.cumsum 0 l, u = 0 := by
    intro l
    induction l with
    | nil => intro _ u hu; simp [MC.cumsum] at hu
    | cons x l ih =>
      intro h u hu
      have hx0 := h x (by simp)
      rw [MC.cumsum, hx0, add_zero] at hu
      rcases List.mem_cons.1 hu with rfl | hu
      · rfl
      · exact ih (fun y hy => h y (List.mem_cons_of_mem _ hy)) u hu
  have pr : ∀ row ∈ e, k.price ⟨loops, 0 / n, S, K, 0, r, b, σ, anti, stand, tr⟩
      (row.map fun x => (b - σ ^ 2 / 2) * (0 / n) + σ * √(0 / n) * x) = S := by
    intro row hrow'
    have hz0 : ∀ x ∈ row.map (fun x => (b - σ ^ 2 / 2) * (0 / (n : ℝ)) + σ * √(0 / (n : ℝ)) * x), x = 0 := by
      intro x hx
      obtain ⟨y, -, rfl⟩ := List.mem_map.1 hx
      simp
    have hl : row.map (fun x => (b - σ ^ 2 / 2) * (0 / (n : ℝ)) + σ * √(0 / (n : ℝ)) * x) ≠ [] := by
      simpa using hrow row hrow'
    generalize row.map (fun x => (b - σ ^ 2 / 2) * (0 / (n : ℝ)) + σ * √(0 / (n : ℝ)) * x) = p at hz0 hl
    cases k
    · show S * Real.exp p.sum = S
      rw [List.sum_eq_zero hz0, Real.exp_zero, mul_one]
    · show MC.mean ((MC.cumsum 0 p).map fun x => S * Real.exp x) = S
      have hlen : (MC.cumsum 0 p).length ≠ 0 := by
        cases p with
        | nil => exact absurd rfl hl
        | cons x p => simp [MC.cumsum]
      have : (MC.cumsum 0 p).map (fun x => S * Real.exp x) = List.replicate (MC.cumsum 0 p).length S := by
        refine List.eq_replicate_iff.2 ⟨by simp, fun u hu => ?_⟩
        obtain ⟨y, hy, rfl⟩ := List.mem_map.1 hu
        rw [cz p hz0 y hy, Real.exp_zero, mul_one]
      rw [this, mean_replicate hlen]
  have : MC.payoff k ⟨loops, 0 / n, S, K, 0, r, b, σ, anti, stand, tr⟩ call e
      = List.replicate e.length (if call then max (S - K) 0 else max (K - S) 0) := by
    unfold MC.payoff MC.wiener
    rw [List.map_map]
    refine List.eq_replicate_iff.2 ⟨by simp, fun u hu => ?_⟩
    obtain ⟨row, hrow', rfl⟩ := List.mem_map.1 hu
    simp only [Function.comp]
    rw [pr row hrow', mul_zero, Real.exp_zero, one_mul]
  show MC.mean (MC.payoff _ _ _ e) = _
  rw [this, mean_replicate (by simpa using hne)]

/-- **C136 (no volatility).** Without volatility the plain option is worth the discounted payoff at the forward price. -/
theorem C136_flat {loops n : ℕ} {S K t r b : ℝ} {anti tr : Bool} {o : Opt}
    (ho : MC.new loops n S K t r b 0 anti false tr = .ok o) (ht : 0 ≤ t) (call : Bool) (z : ℕ → MC.Rows)
    (hz : ∀ i, z i ≠ []) (hr : ∀ i, ∀ row ∈ z i, row.length = n) :
    run .vanilla o call (fun i => embed (z i)) = .ok (List.replicate loops (num (Real.exp (-r * t) *
      (if call then max (S * Real.exp (b * t) - K) 0 else max (K - S * Real.exp (b * t)) 0)))) := by
  have hn : n ≠ 0 := by rintro rfl; simp [MC.new] at ho
  have hn' : (n : ℝ) ≠ 0 := by exact_mod_cast hn
  obtain ⟨l, h1, h2⟩ := C136_agrees .vanilla ho ht call z hz
    (fun i row hrow h => hn (by rw [← hr i row hrow, h]; rfl)) (by simp)
  rw [MC.new, if_neg hn] at ho
  obtain rfl := Except.ok.inj ho
  rw [h2]
  unfold MC.price at h1
  rw [MC.sim_ok _ _ _ _ _ _ _ fun _ _ => rfl] at h1
  obtain rfl := Except.ok.inj h1
  congr 1
  rw [List.map_map]
  refine List.eq_replicate_iff.2 ⟨by simp, fun x hx => ?_⟩
  obtain ⟨i, -, rfl⟩ := List.mem_map.1 hx
  simp only [Function.comp]
  congr 1
  have hlen : ∀ row ∈ drawn anti (z i), row.length = n := by
    cases anti
    · exact hr i
    · intro row hrow
      rcases List.mem_append.1 hrow with h | h
      · exact hr i row h
      · obtain ⟨u, hu, rfl⟩ := List.mem_map.1 h
        rw [List.length_map]
        exact hr i u hu
  have hne := drawn_ne (anti := anti) (hz i)
  show MC.mean (MC.payoff .vanilla _ call (drawn anti (z i))) = _
  generalize drawn anti (z i) = e at hlen hne
  have : MC.payoff .vanilla ⟨loops, t / n, S, K, t, r, b, 0, anti, false, tr⟩ call e = List.replicate e.length
      (Real.exp (-r * t) * (if call then max (S * Real.exp (b * t) - K) 0 else max (K - S * Real.exp (b * t)) 0)) := by
    unfold MC.payoff MC.wiener
    rw [List.map_map]
    refine List.eq_replicate_iff.2 ⟨by simp, fun u hu => ?_⟩
    obtain ⟨row, hrow', rfl⟩ := List.mem_map.1 hu
    have hsum : (row.map fun x => (b - (0 : ℝ) ^ 2 / 2) * (t / n) + 0 * √(t / n) * x).sum = b * t := by
      have : row.map (fun x => (b - (0 : ℝ) ^ 2 / 2) * (t / n) + 0 * √(t / n) * x) = List.replicate n (b * (t / n)) := by
        refine List.eq_replicate_iff.2 ⟨by rw [List.length_map]; exact hlen row hrow', fun u hu => ?_⟩
        obtain ⟨y, -, rfl⟩ := List.mem_map.1 hu
        ring
      rw [this, List.sum_replicate, nsmul_eq_mul]
      field_simp
    simp only [Function.comp, Kind.price, MC.vanillaPrice]
    rw [hsum]
  rw [this, mean_replicate (by simpa using hne)]

/-- Non-vacuity: a put of one path of two steps on its last day is priced; the same option one year late is `nan` twice; with
an infinite innovation a call returns the loop's data. -/
theorem C136_example : ∃ o o' o'', MC.new 2 2 90 100 0 0.1 0.1 0.4 false false false = .ok o ∧
    run .asian o false (fun _ => embed [[1, -2]]) = .ok [num 10, num 10] ∧
    MC.new 2 2 90 100 (-1) 0.1 0.1 0.4 true true false = .ok o' ∧
    run .vanilla o' true (fun _ => embed [[1, -2]]) = .ok [nan, nan] ∧
    MC.new 2 2 90 100 1 0.1 0.1 0.4 false false false = .ok o'' ∧
    ∃ p, run .vanilla o'' true (fun _ => [[pinf, num 1]]) = .error ([[pinf, num 1]], p) := by
  have h0 : MC.new 2 2 90 100 0 0.1 0.1 0.4 false false false = .ok ⟨2, 0 / (2 : ℕ), 90, 100, 0, 0.1, 0.1, 0.4, false, false, false⟩ :=
    if_neg (by norm_num)
  have h1 : MC.new 2 2 90 100 (-1) 0.1 0.1 0.4 true true false
      = .ok ⟨2, -1 / (2 : ℕ), 90, 100, -1, 0.1, 0.1, 0.4, true, true, false⟩ := if_neg (by norm_num)
  have h2 : MC.new 2 2 90 100 1 0.1 0.1 0.4 false false false
      = .ok ⟨2, 1 / (2 : ℕ), 90, 100, 1, 0.1, 0.1, 0.4, false, false, false⟩ := if_neg (by norm_num)
  refine ⟨_, _, _, h0, ?_, h1, ?_, h2, ?_⟩
  · have := C136_today .asian h0 false (fun _ => [[1, -2]]) (by simp) (by simp) (by simp)
    rw [this]
    norm_num [List.replicate]
  · exact C136_late_fails .vanilla h1 (by norm_num) true _ (fun _ => ⟨[num 1, num (-2)], by simp [embed], by simp⟩)
  · obtain ⟨p, hp, -⟩ := C136_infinite_call .vanilla h2 (by norm_num) (by norm_num) (by norm_num) (by norm_num)
      (fun _ => [[pinf, num 1]]) (by simp) (by simp) (by simp)
    exact ⟨p, hp⟩

end Verif.Props
