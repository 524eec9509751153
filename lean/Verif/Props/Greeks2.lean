import Verif.Props.SameGreeks

/-!
C10 and C57 for the classes that override the wrappers of `GreeksFDM`: Miltersen–Schwartz, the two-asset options (Kirk's
approximation and the 3D trees) and the American approximations.
-/
set_option linter.unusedSimpArgs false
namespace Verif.Props
open Verif

/-- `m` reads only the object `a` at address `i`: on every heap with `a` at `i` it returns (or raises) `r` and at most
adds objects. -/
def Reads {α : Type} (i : ℕ) (a : Attrs) (m : HeapM α) (r : Except PyErr α) : Prop :=
  ∀ h : Heap, i < h.length → h.getD i Attrs.empty = a → Harmless m h r

section
variable {α β : Type} {i : ℕ} {a : Attrs}

theorem Reads.bind {m : HeapM α} {k : α → HeapM β} {r : Except PyErr α} {r' : α → Except PyErr β}
    (hm : Reads i a m r) (hk : ∀ v, Reads i a (k v) (r' v)) : Reads i a (m >>= k) (r >>= r') := fun h hi ha =>
  Harmless.bind (hm h hi ha) fun v ex _ =>
    hk v _ (Nat.lt_of_lt_of_le hi (by simp)) (by rw [getD_append_left hi, ha])

theorem Reads.lift (e : Except PyErr α) : Reads i a (HeapM.lift e) e := fun h _ _ => Harmless.lift e h

theorem Reads.pure (v : α) : Reads i a (pure v) (.ok v) := fun h _ _ => ⟨[], by simp; rfl⟩

theorem Reads.method (m : Attrs → Except PyErr Val) : Reads i a (HeapM.method m i) (m a) := fun h _ ha => by
  have := Harmless.method m (i := i) (h := h)
  rwa [ha] at this

theorem Reads.getAttr (x : String) : Reads i a (HeapM.getAttr i x) (attrOf a x) := fun _ _ ha => getAttr_harmless ha x
end

/-- The methods run one after the other, collected into a dictionary. -/
def inOrder {α : Type} : List (String × HeapM α) → HeapM (List (String × α))
  | [] => pure []
  | (n, m) :: l => do
      let v ← m
      let d ← inOrder l
      return (n, v) :: d

theorem inOrder_reads {α : Type} {i : ℕ} {a : Attrs} : ∀ l : List (String × HeapM α),
    (∀ m ∈ l, ∃ r, Reads i a m.2 r) → ∃ r, Reads i a (inOrder l) r ∧
      ∀ h : Heap, i < h.length → h.getD i Attrs.empty = a →
        (∀ d, r = .ok d → List.Forall₂ (fun m e => m.1 = e.1 ∧ (m.2 h).1 = .ok e.2) l d) ∧
        ((∃ e, r = .error e) ↔ ∃ m ∈ l, ∃ e, (m.2 h).1 = .error e)
  | [], _ => ⟨.ok [], Reads.pure [], fun h _ _ => ⟨fun d hd => by cases hd; exact .nil, by simp⟩⟩
  | (n, m) :: l, hl => by
    obtain ⟨r, hr⟩ := hl (n, m) (by simp)
    obtain ⟨rs, hrs, hspec⟩ := inOrder_reads l fun m' hm' => hl m' (by simp [hm'])
    refine ⟨r >>= fun v => rs >>= fun d => .ok ((n, v) :: d),
      Reads.bind hr fun v => Reads.bind hrs fun d => Reads.pure _, fun h hi ha => ?_⟩
    obtain ⟨ex, e⟩ := hr h hi ha
    obtain ⟨s1, s2⟩ := hspec h hi ha
    rcases r with e' | v
    · refine ⟨fun d hd => (by cases hd), ⟨fun _ => ⟨(n, m), by simp, e', congrArg Prod.fst e⟩, fun _ => ⟨e', rfl⟩⟩⟩
    · rcases rs with e' | d
      · refine ⟨fun d hd => (by cases hd), ⟨fun _ => ?_, fun _ => ⟨e', rfl⟩⟩⟩
        obtain ⟨m', hm', q⟩ := s2.1 ⟨e', rfl⟩
        exact ⟨m', by simp [hm'], q⟩
      · refine ⟨fun d' hd' => ?_, ⟨fun ⟨e', he'⟩ => (by cases he'), fun ⟨m', hm', e', q⟩ => ?_⟩⟩
        · cases hd'
          exact .cons ⟨rfl, congrArg Prod.fst e⟩ (s1 d rfl)
        · rcases List.mem_cons.1 hm' with rfl | hm'
          · rw [e] at q; cases q
          · exact absurd (s2.2 ⟨m', hm', e', q⟩) (by rintro ⟨_, h⟩; cases h)

/-- What C57 says of a dictionary of greeks `g` built from the methods `ms` on the heap `h`: no object changes; if it
returns, names and values are those of the methods in order; it raises exactly when one of them raises. -/
def AgreesWith {α : Type} (g : HeapM (List (String × α))) (ms : List (String × HeapM α)) (h : Heap) : Prop :=
  (∃ copies, (g h).2 = h ++ copies) ∧
  (∀ d, (g h).1 = .ok d → List.Forall₂ (fun m e => m.1 = e.1 ∧ (m.2 h).1 = .ok e.2) ms d) ∧
  ((∃ e, (g h).1 = .error e) ↔ ∃ m ∈ ms, ∃ e, (m.2 h).1 = .error e)

theorem agrees_of_reads {α : Type} {i : ℕ} {a : Attrs} {g : HeapM (List (String × α))} {ms : List (String × HeapM α)}
    (hg : g = inOrder ms) (hms : ∀ m ∈ ms, ∃ r, Reads i a m.2 r) {h : Heap} (hi : i < h.length)
    (ha : h.getD i Attrs.empty = a) : AgreesWith g ms h := by
  obtain ⟨r, hr, hs⟩ := inOrder_reads ms hms
  obtain ⟨ex, e⟩ := hr h hi ha
  subst hg
  obtain ⟨s1, s2⟩ := hs h hi ha
  unfold AgreesWith
  rw [e]
  exact ⟨⟨ex, rfl⟩, s1, s2⟩

section
variable {c : Cls} (hc : c ∈ classes) {cl pt : Attrs → Except PyErr Val} (hcl : c.Respects cl) (hpt : c.Respects pt)
  {a : Attrs} {d : Dict} (hd : c.getParams a = .ok d)
include hc hcl hpt hd

theorem der_reads (D : Diff) (i : ℕ) (wrt x : String) (call : Bool) (n : ℕ) (step : Option ℝ) (k : ℝ) :
    Reads i a (partialAt D c cl pt i wrt x call n step k)
      (fdSpec D c (if call then cl else pt) d (attrOf a x) wrt n step k) := fun _ hi ha =>
  partialAt_harmless hc D hcl hpt hd hi ha wrt x call n step k

theorem lamb_reads (D : Diff) (i : ℕ) (call : Bool) :
    Reads i a (fdmLamb D c cl pt i call) (lambSpec D c (if call then cl else pt) d a) := fun _ hi ha =>
  lamb_harmless hc D hcl hpt hd hi ha call
end

/-- State of a reachable object. -/
theorem reach_params {c : Cls} (hc : c ∈ classes) {kw : Dict} {a₀ : Attrs} (h₀ : c.construct kw = (a₀, none))
    (ops : List (String × Val)) : ∃ d, c.getParams (c.runCatch ops a₀) = .ok d := by
  have hl := lawful_of_mem hc
  obtain ⟨p, _, hs⟩ := construct_state hl h₀
  obtain ⟨d, hd, _⟩ := getParams_dict hl (runCatch_readable hl ops _ (State.readable hl hs))
  exact ⟨d, hd⟩

/-! ### Options on two assets -/

/-- Specification of `delta`, `vega`, `gamma` of a two-asset option: one number per asset, each computed by the rule from
the price of fresh options in which only that asset's parameter is replaced. -/
noncomputable def pairSpec (D : Diff) (c : Cls) (price : Attrs → Except PyErr Val) (d : Dict) (a : Attrs)
    (p1 p2 : String) (n : ℕ) : Except PyErr Dict := do
  let x ← fdSpec D c price d (attrOf a ("_" ++ p1)) p1 n none 1
  let y ← fdSpec D c price d (attrOf a ("_" ++ p2)) p2 n none 1
  return [(p1, x), (p2, y)]

/-- Specification of `lamb`: elasticity with respect to each asset, delta times asset price over option price. -/
noncomputable def pairLambSpec (D : Diff) (c : Cls) (price : Attrs → Except PyErr Val) (d : Dict) (a : Attrs) :
    Except PyErr Dict := do
  let p ← price a
  let ds ← pairSpec D c price d a "S1" "S2" 1
  let one (x : String) : Except PyErr Val := do
    let dx ← ds.get x
    let s ← attrOf a ("_" ++ x)
    let e ← Val.map₂ (· * ·) dx s
    Val.map₂ (· / ·) e p
  let l1 ← one "S1"
  let l2 ← one "S2"
  return [("S1", l1), ("S2", l2)]

/-- The methods of a two-asset option by name. -/
noncomputable def pairMethods (x : FdmCtx) (call : Bool) : List (String × HeapM GVal) :=
  [("delta", .dict <$> x.pairDelta call), ("theta", .val <$> x.pairTheta call), ("vega", .dict <$> x.pairVega),
   ("rho", .val <$> x.pairRho call), ("lambda", .dict <$> x.pairLamb call), ("gamma", .dict <$> x.pairGamma)]

theorem Reads.map {α β : Type} {i : ℕ} {a : Attrs} {m : HeapM α} {r : Except PyErr α} (f : α → β) (hm : Reads i a m r) :
    Reads i a (f <$> m) (f <$> r) := by
  have := Reads.bind hm (k := fun v => Pure.pure (f v)) (r' := fun v => .ok (f v)) fun v => Reads.pure _
  have e1 : f <$> m = m >>= fun v => Pure.pure (f v) := (bind_pure_comp f m).symm
  have e2 : f <$> r = r >>= fun v => .ok (f v) := by cases r <;> rfl
  rw [e1, e2]; exact this

section
variable (x : FdmCtx) (hc : x.cls ∈ classes) (hcl : x.cls.Respects x.call) (hpt : x.cls.Respects x.put)
  {a : Attrs} {d : Dict} (hd : x.cls.getParams a = .ok d)
include hc hcl hpt hd

theorem pairDelta_reads (call : Bool) : Reads x.addr a (x.pairDelta call)
    (pairSpec x.D x.cls (if call then x.call else x.put) d a "S1" "S2" 1) :=
  Reads.bind (der_reads hc hcl hpt hd _ _ _ _ _ _ _ _) fun _ =>
    Reads.bind (der_reads hc hcl hpt hd _ _ _ _ _ _ _ _) fun _ => Reads.pure _

theorem pairVega_reads : Reads x.addr a x.pairVega (pairSpec x.D x.cls x.call d a "sigma1" "sigma2" 1) :=
  Reads.bind (der_reads hc hcl hpt hd _ _ _ _ true _ _ _) fun _ =>
    Reads.bind (der_reads hc hcl hpt hd _ _ _ _ true _ _ _) fun _ => Reads.pure _

theorem pairGamma_reads : Reads x.addr a x.pairGamma (pairSpec x.D x.cls x.call d a "S1" "S2" 2) :=
  Reads.bind (der_reads hc hcl hpt hd _ _ _ _ true _ _ _) fun _ =>
    Reads.bind (der_reads hc hcl hpt hd _ _ _ _ true _ _ _) fun _ => Reads.pure _

theorem pairLamb_reads (call : Bool) : Reads x.addr a (x.pairLamb call)
    (pairLambSpec x.D x.cls (if call then x.call else x.put) d a) := by
  set pr := if call then x.call else x.put
  set ds := pairSpec x.D x.cls pr d a "S1" "S2" 1 with hds
  have key : Reads x.addr a (x.pairLamb call) (do
      let p ← pr a
      let da ← ds
      let d1 ← da.get "S1"
      let s1 ← attrOf a "_S1"
      let e1 ← Val.map₂ (· * ·) d1 s1
      let l1 ← Val.map₂ (· / ·) e1 p
      let db ← ds
      let d2 ← db.get "S2"
      let s2 ← attrOf a "_S2"
      let e2 ← Val.map₂ (· * ·) d2 s2
      let l2 ← Val.map₂ (· / ·) e2 p
      return [("S1", l1), ("S2", l2)]) :=
    Reads.bind (Reads.method _) fun _ => Reads.bind (pairDelta_reads x hc hcl hpt hd call) fun _ =>
    Reads.bind (Reads.lift _) fun _ => Reads.bind (Reads.getAttr _) fun _ =>
    Reads.bind (Reads.lift _) fun _ => Reads.bind (Reads.lift _) fun _ =>
    Reads.bind (pairDelta_reads x hc hcl hpt hd call) fun _ => Reads.bind (Reads.lift _) fun _ =>
    Reads.bind (Reads.getAttr _) fun _ => Reads.bind (Reads.lift _) fun _ => Reads.bind (Reads.lift _) fun _ => Reads.pure _
  convert key using 1
  unfold pairLambSpec
  rw [← hds]
  rcases ds with e | da
  · rfl
  · rcases pr a with e | p
    · rfl
    · simp only [ok_bind]
      rw [show ("_" ++ "S1" : String) = "_S1" from rfl, show ("_" ++ "S2" : String) = "_S2" from rfl]
      cases da.get "S1" <;> [rfl; skip]
      cases attrOf a "_S1" <;> [rfl; skip]
      simp only [ok_bind]
      rename_i u v
      cases Val.map₂ (· * ·) u v <;> [rfl; skip]
      simp only [ok_bind]
      rename_i w
      cases Val.map₂ (· / ·) w p <;> [rfl; skip]
      simp only [ok_bind]
      cases da.get "S2" <;> [rfl; skip]
      cases attrOf a "_S2" <;> [rfl; skip]
      simp only [ok_bind]
      rename_i u' v'
      cases Val.map₂ (· * ·) u' v' <;> rfl

/-- **C10** for two-asset options: each greek is the rule applied to fresh options, and no object changes. -/
theorem pair_reads (call : Bool) :
    let pr := if call then x.call else x.put
    List.Forall₂ (fun m r => m.1 = r.1 ∧ Reads x.addr a m.2 r.2) (pairMethods x call)
      [("delta", .dict <$> pairSpec x.D x.cls pr d a "S1" "S2" 1),
       ("theta", .val <$> fdSpec x.D x.cls pr d (attrOf a "_t") "t" 1 (some (1 / 252)) (-1)),
       ("vega", .dict <$> pairSpec x.D x.cls x.call d a "sigma1" "sigma2" 1),
       ("rho", .val <$> fdSpec x.D x.cls pr d (attrOf a "_r") "r" 1 none 1),
       ("lambda", .dict <$> pairLambSpec x.D x.cls pr d a),
       ("gamma", .dict <$> pairSpec x.D x.cls x.call d a "S1" "S2" 2)] :=
  .cons ⟨rfl, Reads.map _ (pairDelta_reads x hc hcl hpt hd call)⟩ <|
  .cons ⟨rfl, Reads.map _ (der_reads hc hcl hpt hd _ _ _ _ _ _ _ _)⟩ <|
  .cons ⟨rfl, Reads.map _ (pairVega_reads x hc hcl hpt hd)⟩ <|
  .cons ⟨rfl, Reads.map _ (der_reads hc hcl hpt hd _ _ _ _ _ _ _ _)⟩ <|
  .cons ⟨rfl, Reads.map _ (pairLamb_reads x hc hcl hpt hd call)⟩ <|
  .cons ⟨rfl, Reads.map _ (pairGamma_reads x hc hcl hpt hd)⟩ .nil
end

theorem reads_of_forall₂ {α : Type} {i : ℕ} {a : Attrs} {ms : List (String × HeapM α)} {rs : List (String × Except PyErr α)}
    (h : List.Forall₂ (fun m r => m.1 = r.1 ∧ Reads i a m.2 r.2) ms rs) : ∀ m ∈ ms, ∃ r, Reads i a m.2 r := by
  induction h with
  | nil => simp
  | cons h _ ih =>
    intro m hm
    rcases List.mem_cons.1 hm with rfl | hm
    · exact ⟨_, h.2⟩
    · exact ih m hm

/-- **C10, two-asset options** (Kirk's approximation and the 3D trees; `classes` lists them). On any object reached by
any `set_param` calls, at any address of any heap, with any differentiation rule: each greek returns (or raises) what the
rule gives on fresh options in which one parameter is replaced, per asset where it is a dictionary, and no existing
object changes. -/
theorem C10_two_asset (x : FdmCtx) (hc : x.cls ∈ classes) (hcl : x.cls.Respects x.call) (hpt : x.cls.Respects x.put)
    {kw : Dict} {a₀ : Attrs} (h₀ : x.cls.construct kw = (a₀, none)) (ops : List (String × Val)) (h : Heap)
    (hi : x.addr < h.length) (hat : h.getD x.addr Attrs.empty = x.cls.runCatch ops a₀) (call : Bool) :
    let a := x.cls.runCatch ops a₀
    let pr := if call then x.call else x.put
    ∃ d, x.cls.getParams a = .ok d ∧
      List.Forall₂ (fun m r => m.1 = r.1 ∧ ∃ copies, m.2 h = (r.2, h ++ copies)) (pairMethods x call)
      [("delta", .dict <$> pairSpec x.D x.cls pr d a "S1" "S2" 1),
       ("theta", .val <$> fdSpec x.D x.cls pr d (attrOf a "_t") "t" 1 (some (1 / 252)) (-1)),
       ("vega", .dict <$> pairSpec x.D x.cls x.call d a "sigma1" "sigma2" 1),
       ("rho", .val <$> fdSpec x.D x.cls pr d (attrOf a "_r") "r" 1 none 1),
       ("lambda", .dict <$> pairLambSpec x.D x.cls pr d a),
       ("gamma", .dict <$> pairSpec x.D x.cls x.call d a "S1" "S2" 2)] := by
  obtain ⟨d, hd⟩ := reach_params hc h₀ ops
  exact ⟨d, hd, (pair_reads x hc hcl hpt hd call).imp fun _ _ hm => ⟨hm.1, hm.2 h hi hat⟩⟩

/-- **C57, two-asset options.** -/
theorem C57_two_asset (x : FdmCtx) (hc : x.cls ∈ classes) (hcl : x.cls.Respects x.call) (hpt : x.cls.Respects x.put)
    {kw : Dict} {a₀ : Attrs} (h₀ : x.cls.construct kw = (a₀, none)) (ops : List (String × Val)) (h : Heap)
    (hi : x.addr < h.length) (hat : h.getD x.addr Attrs.empty = x.cls.runCatch ops a₀) (call : Bool) :
    AgreesWith (x.pairGreeks call) (pairMethods x call) h := by
  obtain ⟨d, hd⟩ := reach_params hc h₀ ops
  exact agrees_of_reads (by simp [FdmCtx.pairGreeks, pairMethods, inOrder])
    (reads_of_forall₂ (pair_reads x hc hcl hpt hd call)) hi hat

/-! ### Miltersen–Schwartz -/

/-- The methods of a Miltersen–Schwartz option by name. -/
noncomputable def msMethods (D : Diff) (i : ℕ) (call : Bool) : List (String × HeapM GVal) :=
  [("delta", .val <$> msDelta D i call), ("theta", .val <$> msTheta D i call), ("vega", .vec <$> msVega D i),
   ("lambda", .val <$> msLamb D i call), ("gamma", .val <$> msGamma D i)]

/-- Specification of the vegas: one entry per volatility. -/
noncomputable def msVegaSpec (D : Diff) (d : Dict) (a : Attrs) : Except PyErr (List Val) := do
  let s ← fdSpec D msCls MSClass.call.run d (attrOf a "_sigmaS") "sigmaS" 1 none 1
  let e ← fdSpec D msCls MSClass.call.run d (attrOf a "_sigmaE") "sigmaE" 1 none 1
  let f ← fdSpec D msCls MSClass.call.run d (attrOf a "_sigmaF") "sigmaF" 1 none 1
  return [s, e, f]

/-- Specification of the elasticity with respect to the forward. -/
noncomputable def msLambSpec (D : Diff) (price : Attrs → Except PyErr Val) (d : Dict) (a : Attrs) : Except PyErr Val := do
  let p ← price a
  let dl ← fdSpec D msCls price d (attrOf a "_FT") "FT" 1 none 1
  let s ← attrOf a "_FT"
  let ds ← Val.map₂ (· * ·) dl s
  Val.map₂ (· / ·) ds p

theorem ms_reads (D : Diff) (i : ℕ) {a : Attrs} {d : Dict} (hd : msCls.getParams a = .ok d) (call : Bool) :
    let pr := if call then MSClass.call.run else MSClass.put.run
    List.Forall₂ (fun m r => m.1 = r.1 ∧ Reads i a m.2 r.2) (msMethods D i call)
      [("delta", .val <$> fdSpec D msCls pr d (attrOf a "_FT") "FT" 1 none 1),
       ("theta", .val <$> fdSpec D msCls pr d (attrOf a "_t") "t" 1 (some (1 / 252)) (-1)),
       ("vega", .vec <$> msVegaSpec D d a),
       ("lambda", .val <$> msLambSpec D pr d a),
       ("gamma", .val <$> fdSpec D msCls MSClass.call.run d (attrOf a "_FT") "FT" 2 none 1)] := by
  have hc : msCls ∈ classes := by simp [classes]
  have hcl := (C10_prices_respect hc).1 MSClass.call (by simp [methodsOf, msCls])
  have hpt := (C10_prices_respect hc).1 MSClass.put (by simp [methodsOf, msCls])
  refine .cons ⟨rfl, Reads.map _ (der_reads hc hcl hpt hd _ _ _ _ _ _ _ _)⟩ <|
    .cons ⟨rfl, Reads.map _ (der_reads hc hcl hpt hd _ _ _ _ _ _ _ _)⟩ <|
    .cons ⟨rfl, Reads.map _ ?_⟩ <|
    .cons ⟨rfl, Reads.map _ (Reads.bind (Reads.method _) fun _ =>
      Reads.bind (der_reads hc hcl hpt hd _ _ _ _ _ _ _ _) fun _ => Reads.bind (Reads.getAttr _) fun _ =>
      Reads.bind (Reads.lift _) fun _ => Reads.lift _)⟩ <|
    .cons ⟨rfl, Reads.map _ (der_reads hc hcl hpt hd _ _ _ _ true _ _ _)⟩ .nil
  have key : Reads i a (msVega D i) (do
      let s ← fdSpec D msCls MSClass.call.run d (attrOf a "_sigmaS") "sigmaS" 1 none 1
      let e ← fdSpec D msCls MSClass.call.run d (attrOf a "_sigmaE") "sigmaE" 1 none 1
      let f ← fdSpec D msCls MSClass.call.run d (attrOf a "_sigmaF") "sigmaF" 1 none 1
      let _ ← fdSpec D msCls MSClass.call.run d (attrOf a "_sigmaS") "sigmaS" 1 none 1
      return [s, e, f]) :=
    Reads.bind (der_reads hc hcl hpt hd _ _ _ _ true _ _ _) fun _ =>
    Reads.bind (der_reads hc hcl hpt hd _ _ _ _ true _ _ _) fun _ =>
    Reads.bind (der_reads hc hcl hpt hd _ _ _ _ true _ _ _) fun _ =>
    Reads.bind (der_reads hc hcl hpt hd _ _ _ _ true _ _ _) fun _ => Reads.pure _
  convert key using 1
  unfold msVegaSpec
  cases fdSpec D msCls MSClass.call.run d (attrOf a "_sigmaS") "sigmaS" 1 none 1 <;> rfl

/-- **C10, Miltersen–Schwartz.** -/
theorem C10_ms (D : Diff) {kw : Dict} {a₀ : Attrs} (h₀ : msCls.construct kw = (a₀, none)) (ops : List (String × Val))
    (h : Heap) (i : ℕ) (hi : i < h.length) (hat : h.getD i Attrs.empty = msCls.runCatch ops a₀) (call : Bool) :
    let a := msCls.runCatch ops a₀
    let pr := if call then MSClass.call.run else MSClass.put.run
    ∃ d, msCls.getParams a = .ok d ∧
      List.Forall₂ (fun m r => m.1 = r.1 ∧ ∃ copies, m.2 h = (r.2, h ++ copies)) (msMethods D i call)
      [("delta", .val <$> fdSpec D msCls pr d (attrOf a "_FT") "FT" 1 none 1),
       ("theta", .val <$> fdSpec D msCls pr d (attrOf a "_t") "t" 1 (some (1 / 252)) (-1)),
       ("vega", .vec <$> msVegaSpec D d a),
       ("lambda", .val <$> msLambSpec D pr d a),
       ("gamma", .val <$> fdSpec D msCls MSClass.call.run d (attrOf a "_FT") "FT" 2 none 1)] := by
  obtain ⟨d, hd⟩ := reach_params (c := msCls) (by simp [classes]) h₀ ops
  exact ⟨d, hd, (ms_reads D i hd call).imp fun _ _ hm => ⟨hm.1, hm.2 h hi hat⟩⟩

/-- **C57, Miltersen–Schwartz.** -/
theorem C57_ms (D : Diff) {kw : Dict} {a₀ : Attrs} (h₀ : msCls.construct kw = (a₀, none)) (ops : List (String × Val))
    (h : Heap) (i : ℕ) (hi : i < h.length) (hat : h.getD i Attrs.empty = msCls.runCatch ops a₀) (call : Bool) :
    AgreesWith (msGreeks D i call) (msMethods D i call) h := by
  obtain ⟨d, hd⟩ := reach_params (c := msCls) (by simp [classes]) h₀ ops
  exact agrees_of_reads (by simp [msGreeks, msMethods, inOrder]) (reads_of_forall₂ (ms_reads D i hd call)) hi hat

/-! ### American approximations -/

/-- Specification of vega with a tenth of the volatility as step; only a number has one. -/
noncomputable def vegaStepSpec (D : Diff) (c : Cls) (price : Attrs → Except PyErr Val) (d : Dict) (a : Attrs) :
    Except PyErr Val :=
  match attrOf a "_sigma" with
  | .ok (.num s) => (D 1 (some (s / 10)) (.num s)).runPure (c.freshPrice price d "sigma")
  | .ok _ => .error .typeError
  | .error e => .error e

theorem vegaStep_reads (x : FdmCtx) (hc : x.cls ∈ classes) (hcl : x.cls.Respects x.call) (hpt : x.cls.Respects x.put)
    {a : Attrs} {d : Dict} (hd : x.cls.getParams a = .ok d) :
    Reads x.addr a x.vegaStep (vegaStepSpec x.D x.cls x.call d a) := by
  have key : Reads x.addr a x.vegaStep (do
      let s ← attrOf a "_sigma"
      let w ← (match s with | .num y => .ok (y / 10) | _ => .error .typeError : Except PyErr ℝ)
      (x.D 1 (some w) s).runPure (x.cls.freshPrice (if true then x.call else x.put) d "sigma")) := by
    refine Reads.bind (Reads.getAttr _) fun s => Reads.bind (Reads.lift _) fun w h hi ha => ?_
    refine rule_harmless (a := a) (fun h' x' hi' ha' => ?_) _ _ hi ha
    exact fdmFunc_harmless (lawful_of_mem hc) hcl hpt "sigma" true ha' hd x'
  convert key using 1
  unfold vegaStepSpec
  rcases attrOf a "_sigma" with e | s
  · rfl
  · cases s <;> rfl

/-- Methods of the American approximations by name, with the class's `vega`. -/
noncomputable def americanMethods (x : FdmCtx) (vega : HeapM Val) (call : Bool) : List (String × HeapM Val) :=
  [("delta", fdmDelta x.D x.cls x.call x.put x.addr call), ("theta", fdmTheta x.D x.cls x.call x.put x.addr call),
   ("vega", vega), ("rho", fdmRho x.D x.cls x.call x.put x.addr call),
   ("lambda", fdmLamb x.D x.cls x.call x.put x.addr call), ("gamma", fdmGamma x.D x.cls x.call x.put x.addr)]

/-- What `float` does to a number or an array: arrays must have exactly one element. (Prices are not strings.) -/
def floatSpec : Val → Except PyErr Val
  | .num y => .ok (.num y)
  | .arr l => if l.length = 1 then .ok (.num (l.headD 0)) else .error .typeError
  | _ => .error .typeError

theorem pyFloat_eq : FdmCtx.pyFloat = floatSpec := by
  funext v
  match v with
  | .arr [] => rfl
  | .arr [y] => rfl
  | .arr (y :: z :: l) => simp [FdmCtx.pyFloat, floatSpec]
  | .num y => rfl
  | .none => rfl
  | .str _ => rfl

/-- **C10, American approximations:** `vega` of BAW and of Bjerksund–Stensland is the rule with step `sigma/10` on
fresh options (the prices of the latter being the entry `OptionPrice`, `C10_option_price`), and no existing object changes. -/
theorem C10_american_vega (x : FdmCtx) (hc : x.cls ∈ classes) (hcl : x.cls.Respects x.call) (hpt : x.cls.Respects x.put)
    {kw : Dict} {a₀ : Attrs} (h₀ : x.cls.construct kw = (a₀, none)) (ops : List (String × Val)) (h : Heap)
    (hi : x.addr < h.length) (hat : h.getD x.addr Attrs.empty = x.cls.runCatch ops a₀) :
    let a := x.cls.runCatch ops a₀
    ∃ d, x.cls.getParams a = .ok d ∧
      (∃ copies, x.bawVega h = (vegaStepSpec x.D x.cls x.call d a >>= floatSpec, h ++ copies)) ∧
      ∃ copies, x.bsaVega h = (vegaStepSpec x.D x.cls x.call d a >>= scale 1, h ++ copies) := by
  obtain ⟨d, hd⟩ := reach_params hc h₀ ops
  have hv := vegaStep_reads x hc hcl hpt hd
  rw [← pyFloat_eq]
  exact ⟨d, hd, (Reads.bind hv fun _ => Reads.lift _) h hi hat, (Reads.bind hv fun _ => Reads.lift _) h hi hat⟩

/-- **C57, American approximations.** -/
theorem C57_american (x : FdmCtx) (hc : x.cls ∈ classes) (hcl : x.cls.Respects x.call) (hpt : x.cls.Respects x.put)
    {kw : Dict} {a₀ : Attrs} (h₀ : x.cls.construct kw = (a₀, none)) (ops : List (String × Val)) (h : Heap)
    (hi : x.addr < h.length) (hat : h.getD x.addr Attrs.empty = x.cls.runCatch ops a₀) (call : Bool) :
    AgreesWith (x.americanGreeks x.bawVega call) (americanMethods x x.bawVega call) h ∧
    AgreesWith (x.americanGreeks x.bsaVega call) (americanMethods x x.bsaVega call) h := by
  obtain ⟨d, hd⟩ := reach_params hc h₀ ops
  have hv := vegaStep_reads x hc hcl hpt hd
  have key : ∀ v : HeapM Val, (∃ r, Reads x.addr (x.cls.runCatch ops a₀) v r) →
      AgreesWith (x.americanGreeks v call) (americanMethods x v call) h := fun v hr => by
    refine agrees_of_reads (by simp [FdmCtx.americanGreeks, americanMethods, inOrder]) (fun m hm => ?_) hi hat
    simp only [americanMethods, List.mem_cons, List.not_mem_nil, or_false] at hm
    rcases hm with rfl | rfl | rfl | rfl | rfl | rfl
    · exact ⟨_, der_reads hc hcl hpt hd _ _ _ _ _ _ _ _⟩
    · exact ⟨_, der_reads hc hcl hpt hd _ _ _ _ _ _ _ _⟩
    · exact hr
    · exact ⟨_, der_reads hc hcl hpt hd _ _ _ _ _ _ _ _⟩
    · exact ⟨_, lamb_reads hc hcl hpt hd _ _ _⟩
    · exact ⟨_, der_reads hc hcl hpt hd _ _ _ _ true _ _ _⟩
  exact ⟨key _ ⟨_, Reads.bind hv fun _ => Reads.lift _⟩, key _ ⟨_, Reads.bind hv fun _ => Reads.lift _⟩⟩

/-- Prices given as dictionaries meet the hypotheses of `C57_american`: they depend on the parameters only when the
dictionaries do. -/
theorem optionPrice_respects (m : Attrs → Except PyErr Dict)
    (hm : ∀ a₁ a₂, (∀ x ∈ defs bsAmericanCls.body [], a₁ x = a₂ x) → m a₁ = m a₂) :
    bsAmericanCls.Respects (optionPrice m) :=
  (C10_prices_respect (by simp [classes])).2 _ fun a₁ a₂ h => by unfold optionPrice; rw [hm a₁ a₂ h]

/-- **C10, Bjerksund–Stensland:** the price used by the greeks is the entry `OptionPrice` of the dictionary returned by `call()`
or `put()`, wherever it stands; exceptions are passed on. -/
theorem C10_option_price (m : Attrs → Except PyErr Dict) (a : Attrs) :
    (∀ price trigger : Val, (m a = .ok [("OptionPrice", price), ("TriggerPrice", trigger)] ∨
      m a = .ok [("TriggerPrice", trigger), ("OptionPrice", price)]) → optionPrice m a = .ok price) ∧
    ∀ e, m a = .error e → optionPrice m a = .error e := by
  refine ⟨fun p q h => ?_, fun e h => ?_⟩
  · rcases h with h | h <;> simp [optionPrice, h, Dict.get, bind, Except.bind, List.lookup]
  · simp [optionPrice, h, bind, Except.bind]

/-- Example: the documented `SpreadApproxOption`, alone on the heap, after a failed and a successful `set_param`, with
any differentiation rule. -/
theorem C57_two_asset_example (D : Diff) : ∃ a₀,
    kirkCls.construct (kirkKw 122 120 3 (1 / 10) 0.1 0 0 0.2 0.25 0.5 1 1) = (a₀, none) ∧
    let a := kirkCls.runCatch [("nonsense", .num 1), ("K", .num 4)] a₀
    AgreesWith ((kirkCtx D 0).pairGreeks false) (pairMethods (kirkCtx D 0) false) [a] := by
  obtain ⟨a, ha, -⟩ := kirk_prices 122 120 3 (1 / 10) 0.1 0 0 0.2 0.25 0.5 1 1
  have hc : kirkCls ∈ classes := by simp [classes]
  exact ⟨a, ha, C57_two_asset (kirkCtx D 0) hc
    ((C10_prices_respect hc).1 KirkClass.call (by simp [methodsOf, kirkCls]))
    ((C10_prices_respect hc).1 KirkClass.put (by simp [methodsOf, kirkCls])) ha _ _ (by simp [kirkCtx]) rfl false⟩

end Verif.Props
