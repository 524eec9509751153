import Verif.Model.GBS

/-!
Model of the American approximations (`/repo/src/finoptions/basic_american_options/__init__.py`):
`RollGeskeWhaleyOption`, `BAWAmericanApproxOption`, `BSAmericanApproxOption`.  The constructors (array
check, attributes) are in `Model/Classes`; here are the pricing methods on plain numbers.

The `while` loops need not terminate, so a run of a loop is an inductive relation between the state before
and the state after; a price is described by the relation between an object and its outcome.  Numbers are
real: runs in which the code produces `nan` (logarithm or root of a negative number, zero divided by
zero) are not described faithfully, and theorems carry the hypotheses that exclude them.
-/
namespace Verif
open Real

/-- A terminating run of `while c(s): s = f(s)`. -/
inductive Py.Loop {σ : Type} (c : σ → Prop) (f : σ → σ) : σ → σ → Prop
  | stop {s : σ} : ¬ c s → Py.Loop c f s s
  | step {s s' : σ} : c s → Py.Loop c f (f s) s' → Py.Loop c f s s'

/-- `_GBSOption(S, K, t, r, b, sigma).call()` with a volatility, as a number. -/
noncomputable def gbsCallNum (S K t r b σ : ℝ) : ℝ :=
  S * exp ((b - r) * t) * CND (GBS.d1Expr S K t b σ)
    - K * exp (-r * t) * CND (GBS.d2Expr (GBS.d1Expr S K t b σ) σ t)

/-- `_GBSOption(S, K, t, r, b, sigma).put()` with a volatility, as a number. -/
noncomputable def gbsPutNum (S K t r b σ : ℝ) : ℝ :=
  K * exp (-r * t) * CND (-(GBS.d2Expr (GBS.d1Expr S K t b σ) σ t))
    - S * exp ((b - r) * t) * CND (-(GBS.d1Expr S K t b σ))

/-! ### Roll–Geske–Whaley -/

/-- Attributes of `RollGeskeWhaleyOption` (`__init__.py:64-88`). -/
structure RGW where
  S : ℝ
  K : ℝ
  t : ℝ
  td : ℝ
  r : ℝ
  D : ℝ
  sigma : Option ℝ

namespace RGW

/-- `__init__.py:86` `self._big`. -/
def big : ℝ := 100000000
/-- `__init__.py:87` `self._eps`. -/
noncomputable def eps : ℝ := 1.0e-5

open Classical in
/-- `__init__.py:91-103` `is_call_optimal`. -/
noncomputable def isCallOptimal (o : RGW) : Bool :=
  if o.D ≤ o.K * (1 - exp (-o.r * (o.t - o.td))) then false else true

/-- `__init__.py:123-132`, the doubling loop; `f x` is the European call at spot `x`. -/
def Doubling (f : ℝ → ℝ) (D K : ℝ) : ℝ → ℝ → Prop :=
  Py.Loop (fun h => f h - h - D + K > 0 ∧ h < big) (fun h => h * 2)

open Classical in
/-- `__init__.py:147-158`, the bisection loop on `(LowS, HighS, I)`. -/
noncomputable def bisectStep (f : ℝ → ℝ) (D K : ℝ) (s : ℝ × ℝ × ℝ) : ℝ × ℝ × ℝ :=
  let hi := if f s.2.2 - s.2.2 - D + K < 0 then s.2.2 else s.2.1
  let lo := if f s.2.2 - s.2.2 - D + K < 0 then s.1 else s.2.2
  (lo, hi, (hi + lo) / 2)

/-- `__init__.py:147-158`. -/
def Bisection (f : ℝ → ℝ) (D K : ℝ) : ℝ × ℝ × ℝ → ℝ × ℝ × ℝ → Prop :=
  Py.Loop (fun s => |f s.2.2 - s.2.2 - D + K| > eps ∧ s.2.1 - s.1 > eps) (bisectStep f D K)

/-- `__init__.py:117-158`: the search for the critical price, with outcome `I` or the `ValueError`. -/
inductive Search (f : ℝ → ℝ) (S D K : ℝ) : Except PyErr ℝ → Prop
  | tooHigh {h : ℝ} : Doubling f D K S h → h > big → Search f S D K (.error .valueError)
  | found {h lo hi I : ℝ} : Doubling f D K S h → ¬ h > big →
      Bisection f D K (0, h, h * 0.5) (lo, hi, I) → Search f S D K (.ok I)

/-- Arithmetic on the value of `_CBND`; `None` raises `TypeError`. -/
def numOf (x : Option ℝ) : Except PyErr ℝ :=
  match x with
  | some v => .ok v
  | none => .error .typeError

/-- `__init__.py:160-176`: the price once the critical price `I` is known. -/
noncomputable def finish (o : RGW) (σ I : ℝ) : Except PyErr ℝ := do
  let Sx := o.S - o.D * exp (-o.r * o.td)
  let a1 := (log (Sx / o.K) + (o.r + σ ^ 2 / 2) * o.t) / (σ * √o.t)
  let a2 := a1 - σ * √o.t
  let b1 := (log (Sx / I) + (o.r + σ ^ 2 / 2) * o.td) / (σ * √o.td)
  let b2 := b1 - σ * √o.td
  let v1 ← numOf (CBND 4 a1 (-b1) (-√(o.td / o.t)))
  let v2 ← numOf (CBND 4 a2 (-b2) (-√(o.td / o.t)))
  return Sx * CND b1 + Sx * v1 - o.K * exp (-o.r * o.t) * v2
    - (o.K - o.D) * exp (-o.r * o.td) * CND b2

/-- `__init__.py:105-176` `call`: `Call o x` holds when `o.call()` returns or raises `x`. -/
def Call (o : RGW) (x : Except PyErr ℝ) : Prop :=
  if o.D ≤ o.K * (1 - exp (-o.r * (o.t - o.td))) then
    x = (GBS.new (o.S - o.D * exp (-o.r * o.td)) o.K o.t o.r o.r o.sigma).call
  else
    match o.sigma with
    | none => x = .error .valueError
    | some σ => ∃ y, Search (fun s => gbsCallNum s o.K (o.t - o.td) o.r o.r σ) o.S o.D o.K y ∧
        x = (do o.finish σ (← y))

end RGW

/-! ### Barone-Adesi–Whaley -/

/-- Attributes of the BAW and BS options (`base.py:355-361`). -/
structure Amer where
  S : ℝ
  K : ℝ
  t : ℝ
  r : ℝ
  b : ℝ
  sigma : Option ℝ

namespace BAW
variable (K t r b σ : ℝ)

/-- `__init__.py:407, 468, 549, 596` `n`. -/
noncomputable def n : ℝ := 2 * b / σ ^ 2
/-- `__init__.py:408, 469` `m`. -/
noncomputable def m : ℝ := 2 * r / σ ^ 2
/-- `__init__.py:417, 478, 550, 597` `X`. -/
noncomputable def X : ℝ := 2 * r / (σ ^ 2 * (1 - exp (-r * t)))
/-- `__init__.py:418, 479, 551-553, 598` `d1` at the price `s`. -/
noncomputable def d1 (s : ℝ) : ℝ := (log (s / K) + (b + σ ^ 2 / 2) * t) / (σ * √t)
/-- `__init__.py:421, 554` `Q2`. -/
noncomputable def Q2 : ℝ := (-(n b σ - 1) + √((n b σ - 1) ^ 2 + 4 * X t r σ)) / 2
/-- `__init__.py:482, 601` `Q1`. -/
noncomputable def Q1 : ℝ := (-(n b σ - 1) - √((n b σ - 1) ^ 2 + 4 * X t r σ)) / 2

/-- `__init__.py:409-416`: the call's seed value. -/
noncomputable def seedCall : ℝ :=
  let q2u := (-(n b σ - 1) + √((n b σ - 1) ^ 2 + 4 * m r σ)) / 2
  let Su := K / (1 - 1 / q2u)
  let h2 := -(b * t + 2 * σ * √t) * K / (Su - K)
  K + (Su - K) * (1 - exp h2)

/-- `__init__.py:423-426, 445-448`: `RHS` of the call. -/
noncomputable def rhsCall (s : ℝ) : ℝ :=
  gbsCallNum s K t r b σ + (1 - exp ((b - r) * t) * CND (d1 K t b σ s)) * s / Q2 t r b σ

/-- `__init__.py:427-436, 449-458`: `bi` of the call. -/
noncomputable def biCall (s : ℝ) : ℝ :=
  exp ((b - r) * t) * CND (d1 K t b σ s) * (1 - 1 / Q2 t r b σ)
    + (1 - exp ((b - r) * t) * CND (d1 K t b σ s) / (σ * √t)) / Q2 t r b σ

/-- `__init__.py:437-462`: the Newton loop of the call (`LHS = Si - K`). -/
def NewtonCall : ℝ → ℝ → Prop :=
  Py.Loop (fun s => |s - K - rhsCall K t r b σ s| / K > 0.000001)
    (fun s => (K + rhsCall K t r b σ s - biCall K t r b σ s * s) / (1 - biCall K t r b σ s))

/-- `__init__.py:470-477`: the put's seed value. -/
noncomputable def seedPut : ℝ :=
  let q1u := (-(n b σ - 1) - √((n b σ - 1) ^ 2 + 4 * m r σ)) / 2
  let Su := K / (1 - 1 / q1u)
  let h1 := (b * t - 2 * σ * √t) * K / (K - Su)
  Su + (K - Su) * exp h1

/-- `__init__.py:484-487, 506-511`: `RHS` of the put. -/
noncomputable def rhsPut (s : ℝ) : ℝ :=
  gbsPutNum s K t r b σ - (1 - exp ((b - r) * t) * CND (-(d1 K t b σ s))) * s / Q1 t r b σ

/-- `__init__.py:488-497, 512-521`: `bi` of the put. -/
noncomputable def biPut (s : ℝ) : ℝ :=
  -exp ((b - r) * t) * CND (-(d1 K t b σ s)) * (1 - 1 / Q1 t r b σ)
    - (1 + exp ((b - r) * t) * CND (-(d1 K t b σ s)) / (σ * √t)) / Q1 t r b σ

/-- `__init__.py:498-525`: the Newton loop of the put (`LHS = K - Si`). -/
def NewtonPut : ℝ → ℝ → Prop :=
  Py.Loop (fun s => |K - s - rhsPut K t r b σ s| / K > 0.000001)
    (fun s => (K - rhsPut K t r b σ s + biPut K t r b σ s * s) / (1 + biPut K t r b σ s))

end BAW

open BAW in
/-- `__init__.py:527-572` `BAWAmericanApproxOption.call`; `Sk` is the critical price found (arbitrary
when it is not computed). -/
def BAW.Call (o : Amer) (Sk : ℝ) (x : Except PyErr ℝ) : Prop :=
  if o.b ≥ o.r then x = (GBS.new o.S o.K o.t o.r o.b o.sigma).call
  else match o.sigma with
    | none => x = .error .typeError
    | some σ => NewtonCall o.K o.t o.r o.b σ (seedCall o.K o.t o.r o.b σ) Sk ∧
      (if o.S < Sk then
        let a2 := Sk / Q2 o.t o.r o.b σ * (1 - exp ((o.b - o.r) * o.t) * CND (d1 o.K o.t o.b σ Sk))
        x = .ok (gbsCallNum o.S o.K o.t o.r o.b σ + a2 * (o.S / Sk) ^ (Q2 o.t o.r o.b σ))
      else x = .ok (o.S - o.K))

open BAW in
/-- `__init__.py:574-612` `BAWAmericanApproxOption.put`. -/
def BAW.Put (o : Amer) (Sk : ℝ) (x : Except PyErr ℝ) : Prop :=
  match o.sigma with
  | none => x = .error .typeError
  | some σ => NewtonPut o.K o.t o.r o.b σ (seedPut o.K o.t o.r o.b σ) Sk ∧
    (if o.S > Sk then
      let a1 := -(Sk / Q1 o.t o.r o.b σ) * (1 - exp ((o.b - o.r) * o.t) * CND (-(d1 o.K o.t o.b σ Sk)))
      x = .ok (gbsPutNum o.S o.K o.t o.r o.b σ + a1 * (o.S / Sk) ^ (Q1 o.t o.r o.b σ))
    else x = .ok (o.K - o.S))

/-! ### Bjerksund–Stensland -/

namespace BS93
/-- `__init__.py:857-876` `_bsPhi`. -/
noncomputable def phi (S T γ H I r b σ : ℝ) : ℝ :=
  let lamb := (-r + γ * b + 0.5 * γ * (γ - 1) * σ ^ 2) * T
  let d := -(log (S / H) + (b + (γ - 0.5) * σ ^ 2) * T) / (σ * √T)
  let κ := 2 * b / σ ^ 2 + (2 * γ - 1)
  exp lamb * S ^ γ * (CND d - (I / S) ^ κ * CND (d - 2 * log (I / S) / (σ * √T)))

/-- `__init__.py:832-834` `Beta`. -/
noncomputable def beta (r b σ : ℝ) : ℝ :=
  (1 / 2 - b / σ ^ 2) + √((b / σ ^ 2 - 1 / 2) ^ 2 + 2 * r / σ ^ 2)

/-- `__init__.py:835-839` `I`. -/
noncomputable def trigger (X T r b σ : ℝ) : ℝ :=
  let β := beta r b σ
  let BInf := β / (β - 1) * X
  let B0 := max X (r / (r - b) * X)
  let ht := -(b * T + 2 * σ * √T) * B0 / (BInf - B0)
  B0 + (BInf - B0) * (1 - exp ht)

/-- `__init__.py:840, 845-850`: the price below the trigger. -/
noncomputable def below (S X T r b σ I : ℝ) : ℝ :=
  let β := beta r b σ
  let α := (I - X) * I ^ (-β)
  α * S ^ β - α * phi S T β I I r b σ + phi S T 1 I I r b σ - phi S T 1 X I r b σ
    - X * phi S T 0 I I r b σ + X * phi S T 0 X I r b σ

open Classical in
/-- `__init__.py:823-855` `_BSAmericanCallApprox`: option price and trigger price (`none` for `nan`). -/
noncomputable def approx (S X T r b : ℝ) (sigma : Option ℝ) : Except PyErr (ℝ × Option ℝ) :=
  if b ≥ r then do
    let c ← (GBS.new S X T r b sigma).call
    return (c, none)
  else match sigma with
    | none => .error .typeError
    | some σ =>
      let I := trigger X T r b σ
      if S ≥ I then .ok (S - X, some I)
      else .ok (below S X T r b σ I, some I)

/-- `__init__.py:776-797` `call`. -/
noncomputable def call (o : Amer) : Except PyErr (ℝ × Option ℝ) := approx o.S o.K o.t o.r o.b o.sigma
/-- `__init__.py:799-821` `put`. -/
noncomputable def put (o : Amer) : Except PyErr (ℝ × Option ℝ) :=
  approx o.K o.S o.t (o.r - o.b) (-o.b) o.sigma
end BS93

end Verif
