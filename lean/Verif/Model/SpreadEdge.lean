import Verif.Model.BAWFloat
import Verif.Model.Classes

/-!
`SpreadApproxOption` and `MiltersenSchwartzOption` on numbers that include `nan` and the two infinities, as `numpy`
computes with them (`Fl`, see `Model/BAWFloat`): the functions of `Model/Classes` for arguments on the edge of or outside
the range for which these describe the code.

Rounding, overflow and the sign of zero are left out. All arguments are numbers.
-/
namespace Verif

namespace KirkEdge
open Fl
variable (S1 S2 K t r b1 b2 σ1 σ2 ρ Q1 Q2 : Fl)

/-- spreadapprox.py:109, 111, 145, 170: `Q2*S2*e2 + K*exp(-r*t)`, with `e2` of line 107. -/
noncomputable def short : Fl := Q2 * S2 * exp ((b2 - r) * t) + K * exp (-r * t)

/-- spreadapprox.py:106, 109 `_S`. -/
noncomputable def S : Fl := Q1 * S1 * exp ((b1 - r) * t) / short S2 K t r b2 Q2

/-- spreadapprox.py:111 `F`. -/
noncomputable def F : Fl := Q2 * S2 * exp ((b2 - r) * t) / short S2 K t r b2 Q2

/-- spreadapprox.py:113-115 `_sigma`. -/
noncomputable def sigma : Fl :=
  sqrt (σ1 ^ 2 + (σ2 * F S2 K t r b2 Q2) ^ 2 - 2 * ρ * σ1 * σ2 * F S2 K t r b2 Q2)

/-- spreadapprox.py:117-119 `_d1`. -/
noncomputable def d1 : Fl :=
  (log (S S1 S2 K t r b1 b2 Q1 Q2) + num 0.5 * sigma S2 K t r b2 σ1 σ2 ρ Q2 ^ 2 * t)
    / (sigma S2 K t r b2 σ1 σ2 ρ Q2 * sqrt t)

/-- spreadapprox.py:121 `_d2`. -/
noncomputable def d2 : Fl := d1 S1 S2 K t r b1 b2 σ1 σ2 ρ Q1 Q2 - sigma S2 K t r b2 σ1 σ2 ρ Q2 * sqrt t

/-- spreadapprox.py:144-146 `call`. -/
noncomputable def call : Fl :=
  short S2 K t r b2 Q2 * (S S1 S2 K t r b1 b2 Q1 Q2 * Fl.CND (d1 S1 S2 K t r b1 b2 σ1 σ2 ρ Q1 Q2)
    - Fl.CND (d2 S1 S2 K t r b1 b2 σ1 σ2 ρ Q1 Q2))

/-- spreadapprox.py:169-171 `put`. -/
noncomputable def put : Fl :=
  short S2 K t r b2 Q2 * (-S S1 S2 K t r b1 b2 Q1 Q2 * Fl.CND (-d1 S1 S2 K t r b1 b2 σ1 σ2 ρ Q1 Q2)
    + Fl.CND (-d2 S1 S2 K t r b1 b2 σ1 σ2 ρ Q1 Q2))

end KirkEdge

namespace MSEdge
open Fl
variable (Pt FT K v c : Fl)

/-- vanillaoptions.py:701 `_vz`; `v` is the value of lines 678-690. -/
noncomputable def vz : Fl := sqrt v

/-- vanillaoptions.py:703 `_d1`; `c` is `_vxz`. -/
noncomputable def d1 : Fl := (log (FT / K) - c + vz v ^ 2 / 2) / vz v

/-- vanillaoptions.py:704 `_d2`. -/
noncomputable def d2 : Fl := (log (FT / K) - c - vz v ^ 2 / 2) / vz v

/-- vanillaoptions.py:735 `call`. -/
noncomputable def call : Fl := Pt * (FT * exp (-c) * Fl.CND (d1 FT K v c) - K * Fl.CND (d2 FT K v c))

/-- vanillaoptions.py:761 `put`. -/
noncomputable def put : Fl := Pt * (K * Fl.CND (-d2 FT K v c) - FT * exp (-c) * Fl.CND (-d1 FT K v c))

open Classical in
/-- `MiltersenSchwartzOption(…).call()` and `.put()`: the numbers `v` (vanillaoptions.py:678-690) and `_vxz`
(vanillaoptions.py:691-699) are those of the class body in `Model/Classes`, which divides by Python numbers and so raises
`ZeroDivisionError` if one of the divisors is zero, as `FT/K` does. -/
noncomputable def price (isCall : Bool) (Pt FT K t T σS σE σF ρSE ρSF ρEF κE κF : ℝ) : Except PyErr Fl :=
  let a : Attrs := (((((((((((Attrs.empty.set "_t" (.num t)).set "_T" (.num T)).set "_sigmaS" (.num σS)).set "_sigmaE"
    (.num σE)).set "_sigmaF" (.num σF)).set "_rhoSE" (.num ρSE)).set "_rhoSF" (.num ρSF)).set "_rhoEF" (.num ρEF)).set
    "_KappaE" (.num κE)).set "_KappaF" (.num κF)).set "_K" (.num K))
  match MSClass.vzExpr.eval Attrs.empty a, MSClass.vxzExpr.eval Attrs.empty a with
  | .error e, _ => .error e
  | _, .error e => .error e
  | .ok (.num v), .ok (.num c) =>
    if K = 0 then .error .zeroDivision
    else .ok (if isCall then call (num Pt) (num FT) (num K) (num v) (num c)
      else put (num Pt) (num FT) (num K) (num v) (num c))
  | _, _ => .error .typeError

end MSEdge
end Verif
