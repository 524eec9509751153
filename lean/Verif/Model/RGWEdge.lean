import Verif.Model.BAWFloat
import Verif.Model.Normal

/-!
`RollGeskeWhaleyOption.call` (basic_american_options/__init__.py:105-176) and `_CBND` (base.py:72-128) on numbers that
include `nan` and the two infinities, as `numpy` computes with them (`Fl`, see `Model/BAWFloat`): the functions of `RGW` in
`Model/American` and of `Model/Normal` for arguments outside the range for which these describe the code.

The arguments are Python numbers, a volatility is given, and strike and maturity are not zero (`Sx / K` and `td / t`
would raise).  Rounding, overflow and the sign of zero are left out.
-/
namespace Verif.RGWEdge
open Fl

/-- `x <= 0`; false for `nan`. -/
def le0 : Fl → Prop
  | num x => x ≤ 0
  | ninf => True
  | _ => False

/-- `x >= 0`; false for `nan`. -/
def ge0 : Fl → Prop
  | num x => 0 ≤ x
  | pinf => True
  | _ => False

/-- What `_CBND` does: return a number, return `None` (or raise the `TypeError` of arithmetic on an inner `None`), or
recurse deeper than the model follows. -/
inductive Out where
  | val (x : Fl)
  | missing
  | deep

/-- Arithmetic on an inner result. -/
def Out.map (f : Fl → Fl) : Out → Out
  | val x => val (f x)
  | missing => missing
  | deep => deep

/-- base.py:84-85; `abs(rho) == 1` is false for `nan` and the infinities. -/
noncomputable def cbndRho : Fl → Fl
  | num ρ => num (Verif.cbndRho ρ)
  | x => x

/-- base.py:92-99, the double loop accumulating `Sum1`. -/
noncomputable def cbndSum (a1 b1 ρ : Fl) : Fl :=
  (cbndX.zip cbndY).foldl (fun acc xi =>
    (cbndX.zip cbndY).foldl (fun acc' xj =>
      acc' + num xi.1 * num xj.1 * exp (a1 * (2 * num xi.2 - a1) + b1 * (2 * num xj.2 - b1)
        + 2 * ρ * (num xi.2 - a1) * (num xj.2 - b1))) acc) 0

/-- base.py:116-125: the reduced correlations `rho1` and, with `a` and `b` exchanged, `rho2`. -/
noncomputable def redRho (a b ρ : Fl) (q : Fl) : Fl := (ρ * a - b) * sign a / sqrt q

open Classical in
/-- base.py:72-128 `_CBND`; the first argument bounds the depth of the recursion,
which never exceeds three (`CBND_ne_deep` in `Lemmas/CBNDEdge`). Branch order as in the source. -/
noncomputable def CBND : ℕ → Fl → Fl → Fl → Out
  | 0, _, _, _ => .deep
  | fuel + 1, a, b, rho0 =>
    let ρ := cbndRho rho0
    let a1 := a / sqrt (2 * (1 - ρ ^ 2))
    let b1 := b / sqrt (2 * (1 - ρ ^ 2))
    if le0 a ∧ le0 b ∧ le0 ρ then .val (sqrt (1 - ρ ^ 2) / num Real.pi * cbndSum a1 b1 ρ)
    else if le0 a ∧ ge0 b ∧ ge0 ρ then (CBND fuel a (-b) (-ρ)).map (fun v => Fl.CND a - v)
    else if ge0 a ∧ le0 b ∧ ge0 ρ then (CBND fuel (-a) b (-ρ)).map (fun v => Fl.CND b - v)
    else if ge0 a ∧ ge0 b ∧ le0 ρ then (CBND fuel (-a) (-b) ρ).map (fun v => Fl.CND a + Fl.CND b - 1 + v)
    else if ge0 (a * b * ρ) then
      let q := a ^ 2 - 2 * ρ * a * b + b ^ 2
      let δ := (1 - sign a * sign b) / 4
      match CBND fuel a 0 (redRho a b ρ q), CBND fuel b 0 (redRho b a ρ q) with
      | .val v1, .val v2 => .val (v1 + v2 - δ)
      | .deep, _ => .deep
      | .missing, _ => .missing
      | .val _, o => o
    else .missing

/-- `__init__.py:116-131, 141-143, 154-156`: `ci` at the spot `h`. -/
noncomputable def ci (K t td r σ h : ℝ) : Fl := gbsCall (num h) (num K) (num (t - td)) (num r) (num r) (num σ)

/-- `__init__.py:122, 146, 149`: `ci - h - D + K`. -/
noncomputable def gap (f : ℝ → Fl) (D K h : ℝ) : Fl := f h - num h - num D + num K

/-- `__init__.py:120-131`, the doubling loop. -/
def Doubling (f : ℝ → Fl) (D K : ℝ) : ℝ → ℝ → Prop :=
  Py.Loop (fun h => lt 0 (gap f D K h) ∧ h < RGW.big) (fun h => h * 2)

open Classical in
/-- `__init__.py:149-156`, the body of the bisection loop on `(LowS, HighS, I)`. -/
noncomputable def bisectStep (f : ℝ → Fl) (D K : ℝ) (s : ℝ × ℝ × ℝ) : ℝ × ℝ × ℝ :=
  let hi := if lt (gap f D K s.2.2) 0 then s.2.2 else s.2.1
  let lo := if lt (gap f D K s.2.2) 0 then s.1 else s.2.2
  (lo, hi, (hi + lo) / 2)

/-- `__init__.py:146-156`. -/
def Bisection (f : ℝ → Fl) (D K : ℝ) : ℝ × ℝ × ℝ → ℝ × ℝ × ℝ → Prop :=
  Py.Loop (fun s => lt (num RGW.eps) (abs (gap f D K s.2.2)) ∧ s.2.1 - s.1 > RGW.eps) (bisectStep f D K)

/-- `__init__.py:116-156`: the search for the critical price, with outcome `I` or the `ValueError`. -/
inductive Search (f : ℝ → Fl) (S D K : ℝ) : Except PyErr ℝ → Prop
  | tooHigh {h : ℝ} : Doubling f D K S h → h > RGW.big → Search f S D K (.error .valueError)
  | found {h lo hi I : ℝ} : Doubling f D K S h → ¬ h > RGW.big →
      Bisection f D K (0, h, h * 0.5) (lo, hi, I) → Search f S D K (.ok I)

/-- `__init__.py:158-160, 162-164`: `a1` with `(y, T) = (K, t)`, `b1` with `(y, T) = (I, td)`. -/
noncomputable def d (Sx y r T σ : ℝ) : Fl :=
  (log (num Sx / num y) + (num r + num σ ^ 2 / 2) * num T) / (num σ * sqrt (num T))

/-- `__init__.py:161, 165`: `a2` and `b2`. -/
noncomputable def d' (Sx y r T σ : ℝ) : Fl := d Sx y r T σ - num σ * sqrt (num T)

/-- `__init__.py:167-176`: the result for the two values of `_CBND`. Multiplication by `None` raises `TypeError`. -/
noncomputable def combine (Sx K t td r D σ I : ℝ) : Out → Out → Except PyErr Fl
  | .val v1, .val v2 => .ok (num Sx * Fl.CND (d Sx I r td σ) + num Sx * v1 - num K * num (Real.exp (-r * t)) * v2
      - num (K - D) * num (Real.exp (-r * td)) * Fl.CND (d' Sx I r td σ))
  | _, _ => .error .typeError

/-- `__init__.py:158-176`: the price once the critical price `I` is known. -/
noncomputable def finish (S K t td r D σ I : ℝ) : Except PyErr Fl :=
  let Sx := S - D * Real.exp (-r * td)
  combine Sx K t td r D σ I
    (CBND 4 (d Sx K r t σ) (-d Sx I r td σ) (-sqrt (num td / num t)))
    (CBND 4 (d' Sx K r t σ) (-d' Sx I r td σ) (-sqrt (num td / num t)))

/-- `__init__.py:105-176` `call`: `Call … x` holds when `call()` returns or raises `x`. -/
def Call (S K t td r D σ : ℝ) (x : Except PyErr Fl) : Prop :=
  if D ≤ K * (1 - Real.exp (-r * (t - td))) then
    x = .ok (gbsCall (num (S - D * Real.exp (-r * td))) (num K) (num t) (num r) (num r) (num σ))
  else ∃ y, Search (ci K t td r σ) S D K y ∧ x = (do finish S K t td r D σ (← y))

end Verif.RGWEdge
