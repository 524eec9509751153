import Verif.Model.American

/-!
`BAWAmericanApproxOption` on numbers that include `nan` and the two infinities, as `numpy` computes with them.

Rounding, overflow, underflow and the sign of zero are left out: `x / 0` is the infinity with the sign of `x`.  The
arguments are such that the Python (not numpy) divisions `2*b/sigma**2`, `2*r/sigma**2` and `S/K` have a nonzero
divisor.
-/
namespace Verif

/-- A `numpy.float64` without rounding. -/
inductive Fl where
  | num (x : ℝ)
  | pinf
  | ninf
  | nan

namespace Fl

/-- The infinity with the sign of `x`; `nan` for zero. -/
noncomputable def signed (x : ℝ) : Fl := if x > 0 then pinf else if x < 0 then ninf else nan

/-- Unary minus. -/
protected def neg : Fl → Fl
  | num x => num (-x)
  | pinf => ninf
  | ninf => pinf
  | nan => nan

/-- `a + b`. -/
protected noncomputable def add : Fl → Fl → Fl
  | nan, _ => nan
  | _, nan => nan
  | num x, num y => num (x + y)
  | num _, pinf => pinf
  | num _, ninf => ninf
  | pinf, num _ => pinf
  | ninf, num _ => ninf
  | pinf, pinf => pinf
  | ninf, ninf => ninf
  | pinf, ninf => nan
  | ninf, pinf => nan

/-- `a * b`. -/
protected noncomputable def mul : Fl → Fl → Fl
  | nan, _ => nan
  | _, nan => nan
  | num x, num y => num (x * y)
  | num x, pinf => signed x
  | num x, ninf => signed (-x)
  | pinf, num y => signed y
  | ninf, num y => signed (-y)
  | pinf, pinf => pinf
  | ninf, ninf => pinf
  | pinf, ninf => ninf
  | ninf, pinf => ninf

/-- `1 / b` up to the sign of zero. -/
protected noncomputable def inv : Fl → Fl
  | nan => nan
  | num y => if y = 0 then pinf else num y⁻¹
  | pinf => num 0
  | ninf => num 0

noncomputable instance : Neg Fl := ⟨Fl.neg⟩
noncomputable instance : Add Fl := ⟨Fl.add⟩
noncomputable instance : Sub Fl := ⟨fun a b => a + -b⟩
noncomputable instance : Mul Fl := ⟨Fl.mul⟩
/-- `a / b`. -/
noncomputable instance : Div Fl := ⟨fun a b => a * b.inv⟩
noncomputable instance (n : ℕ) : OfNat Fl n := ⟨num n⟩

/-- `a ** k` for a literal exponent `k`. -/
noncomputable def npow (a : Fl) : ℕ → Fl
  | 0 => 1
  | k + 1 => npow a k * a
noncomputable instance : Pow Fl ℕ := ⟨npow⟩

/-- `abs`. -/
def abs : Fl → Fl
  | num x => num |x|
  | pinf => pinf
  | ninf => pinf
  | nan => nan

/-- `numpy.sign`. -/
noncomputable def sign : Fl → Fl
  | num x => num (npSign x)
  | pinf => 1
  | ninf => -1
  | nan => nan

/-- `numpy.exp`. -/
noncomputable def exp : Fl → Fl
  | num x => num (Real.exp x)
  | pinf => pinf
  | ninf => 0
  | nan => nan

/-- `numpy.log`. -/
noncomputable def log : Fl → Fl
  | num x => if x > 0 then num (Real.log x) else if x = 0 then ninf else nan
  | pinf => pinf
  | ninf => nan
  | nan => nan

/-- `numpy.sqrt`. -/
noncomputable def sqrt : Fl → Fl
  | num x => if 0 ≤ x then num (Real.sqrt x) else nan
  | pinf => pinf
  | ninf => nan
  | nan => nan

/-- `x ** y` for floats; only finite positive bases are told apart, any other base gives `nan` (a base that the code
never combines with a premium that is a number, see `Props/BAWFloat`). -/
noncomputable def rpow : Fl → Fl → Fl
  | num x, num y => if x > 0 then num (x ^ y) else nan
  | _, _ => nan

/-- `a < b`; false as soon as one side is `nan`. -/
def lt : Fl → Fl → Prop
  | num x, num y => x < y
  | num _, pinf => True
  | ninf, num _ => True
  | ninf, pinf => True
  | _, _ => False

/-- base.py:36 `_NDF`; `sqrt(8*atan(1))` is a positive number. -/
noncomputable def NDF (x : Fl) : Fl := exp (-x * x / 2) / num (Real.sqrt (8 * Real.arctan 1))

/-- base.py:57-70 `_CND`. -/
noncomputable def CND (x : Fl) : Fl :=
  let k := 1 / (1 + num 0.2316419 * abs x)
  let result := NDF x * (num 0.319381530 * k + num (-0.356563782) * k ^ 2 + num 1.781477937 * k ^ 3
    + num (-1.821255978) * k ^ 4 + num 1.330274429 * k ^ 5) - num 0.5
  num 0.5 - result * sign x

/-- vanillaoptions.py:70-73 `_d1`. -/
noncomputable def gbsD1 (S K t b σ : Fl) : Fl := (log (S / K) + (b + σ * σ / 2) * t) / (σ * sqrt t)

/-- vanillaoptions.py:103-111 `GBSOption.call`. -/
noncomputable def gbsCall (S K t r b σ : Fl) : Fl :=
  let d1 := gbsD1 S K t b σ
  let d2 := d1 - σ * sqrt t
  S * exp ((b - r) * t) * CND d1 - K * exp (-r * t) * CND d2

/-- vanillaoptions.py:113-136 `GBSOption.put`. -/
noncomputable def gbsPut (S K t r b σ : Fl) : Fl :=
  let d1 := gbsD1 S K t b σ
  let d2 := d1 - σ * sqrt t
  K * exp (-r * t) * CND (-d2) - S * exp ((b - r) * t) * CND (-d1)

end Fl

namespace BAWFloat
open Fl
variable (K t r b σ : Fl)

/-- `__init__.py:407, 468, 549, 596` `n`. -/
noncomputable def n : Fl := 2 * b / σ ^ 2
/-- `__init__.py:408, 469` `m`. -/
noncomputable def m : Fl := 2 * r / σ ^ 2
/-- `__init__.py:417, 478, 550, 597` `X`. -/
noncomputable def X : Fl := 2 * r / (σ ^ 2 * (1 - exp (-r * t)))
/-- `__init__.py:418, 479, 551-553, 598` `d1` at the price `s`. -/
noncomputable def d1 (s : Fl) : Fl := (log (s / K) + (b + σ ^ 2 / 2) * t) / (σ * sqrt t)
/-- `__init__.py:421, 554` `Q2`. -/
noncomputable def Q2 : Fl := (-(n b σ - 1) + sqrt ((n b σ - 1) ^ 2 + 4 * X t r σ)) / 2
/-- `__init__.py:482, 601` `Q1`. -/
noncomputable def Q1 : Fl := (-(n b σ - 1) - sqrt ((n b σ - 1) ^ 2 + 4 * X t r σ)) / 2

/-- `__init__.py:409-416`: the call's seed value. -/
noncomputable def seedCall : Fl :=
  let q2u := (-(n b σ - 1) + sqrt ((n b σ - 1) ^ 2 + 4 * m r σ)) / 2
  let Su := K / (1 - 1 / q2u)
  let h2 := -(b * t + 2 * σ * sqrt t) * K / (Su - K)
  K + (Su - K) * (1 - exp h2)

/-- `__init__.py:423-426, 445-448`: `RHS` of the call. -/
noncomputable def rhsCall (s : Fl) : Fl :=
  gbsCall s K t r b σ + (1 - exp ((b - r) * t) * Fl.CND (d1 K t b σ s)) * s / Q2 t r b σ

/-- `__init__.py:427-436, 449-458`: `bi` of the call. -/
noncomputable def biCall (s : Fl) : Fl :=
  exp ((b - r) * t) * Fl.CND (d1 K t b σ s) * (1 - 1 / Q2 t r b σ)
    + (1 - exp ((b - r) * t) * Fl.CND (d1 K t b σ s) / (σ * sqrt t)) / Q2 t r b σ

/-- `__init__.py:437-462`: the Newton loop of the call (`LHS = Si - K`). -/
def NewtonCall : Fl → Fl → Prop :=
  Py.Loop (fun s => lt (num 0.000001) (abs (s - K - rhsCall K t r b σ s) / K))
    (fun s => (K + rhsCall K t r b σ s - biCall K t r b σ s * s) / (1 - biCall K t r b σ s))

/-- `__init__.py:470-477`: the put's seed value. -/
noncomputable def seedPut : Fl :=
  let q1u := (-(n b σ - 1) - sqrt ((n b σ - 1) ^ 2 + 4 * m r σ)) / 2
  let Su := K / (1 - 1 / q1u)
  let h1 := (b * t - 2 * σ * sqrt t) * K / (K - Su)
  Su + (K - Su) * exp h1

/-- `__init__.py:484-487, 506-511`: `RHS` of the put. -/
noncomputable def rhsPut (s : Fl) : Fl :=
  gbsPut s K t r b σ - (1 - exp ((b - r) * t) * Fl.CND (-(d1 K t b σ s))) * s / Q1 t r b σ

/-- `__init__.py:488-497, 512-521`: `bi` of the put. -/
noncomputable def biPut (s : Fl) : Fl :=
  -exp ((b - r) * t) * Fl.CND (-(d1 K t b σ s)) * (1 - 1 / Q1 t r b σ)
    - (1 + exp ((b - r) * t) * Fl.CND (-(d1 K t b σ s)) / (σ * sqrt t)) / Q1 t r b σ

/-- `__init__.py:498-525`: the Newton loop of the put (`LHS = K - Si`). -/
def NewtonPut : Fl → Fl → Prop :=
  Py.Loop (fun s => lt (num 0.000001) (abs (K - s - rhsPut K t r b σ s) / K))
    (fun s => (K - rhsPut K t r b σ s + biPut K t r b σ s * s) / (1 + biPut K t r b σ s))

/-- `__init__.py:527-572` `BAWAmericanApproxOption.call`, with a volatility: `Call S K t r b σ x` holds when the method
returns `x`. -/
def Call (S K t r b σ : ℝ) (x : Fl) : Prop :=
  if b ≥ r then x = gbsCall (num S) (num K) (num t) (num r) (num b) (num σ)
  else ∃ Sk, NewtonCall (num K) (num t) (num r) (num b) (num σ) (seedCall (num K) (num t) (num r) (num b) (num σ)) Sk ∧
    ((lt (num S) Sk ∧ x = gbsCall (num S) (num K) (num t) (num r) (num b) (num σ)
      + Sk / Q2 (num t) (num r) (num b) (num σ)
          * (1 - exp ((num b - num r) * num t) * Fl.CND (d1 (num K) (num t) (num b) (num σ) Sk))
        * rpow (num S / Sk) (Q2 (num t) (num r) (num b) (num σ)))
    ∨ (¬ lt (num S) Sk ∧ x = num S - num K))

/-- `__init__.py:574-612` `BAWAmericanApproxOption.put`, with a volatility. -/
def Put (S K t r b σ : ℝ) (x : Fl) : Prop :=
  ∃ Sk, NewtonPut (num K) (num t) (num r) (num b) (num σ) (seedPut (num K) (num t) (num r) (num b) (num σ)) Sk ∧
    ((lt Sk (num S) ∧ x = gbsPut (num S) (num K) (num t) (num r) (num b) (num σ)
      + -(Sk / Q1 (num t) (num r) (num b) (num σ))
          * (1 - exp ((num b - num r) * num t) * Fl.CND (-(d1 (num K) (num t) (num b) (num σ) Sk)))
        * rpow (num S / Sk) (Q1 (num t) (num r) (num b) (num σ)))
    ∨ (¬ lt Sk (num S) ∧ x = num K - num S))

end BAWFloat
end Verif
