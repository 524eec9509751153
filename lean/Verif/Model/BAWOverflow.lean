import Verif.Model.BAWFloat

/-!
Overflow of the exponential in the seed of `BAWAmericanApproxOption.put`, on top of `Model/BAWFloat`.

Of double-precision arithmetic only this one overflow is modelled: the other operations stay exact as in
`Model/BAWFloat`.
-/
namespace Verif

/-- `numpy.exp` on doubles: infinity as soon as the exact value rounds to `2^1024`. -/
noncomputable def Fl.expD : Fl → Fl
  | .num x => if Real.exp x < 2 ^ 1024 - 2 ^ 970 then .num (Real.exp x) else .pinf
  | x => Fl.exp x

namespace BAWFloat
open Fl

/-- `__init__.py:468-477`: the put's seed value, with an exponential that overflows. -/
noncomputable def seedPutD (K t r b σ : Fl) : Fl :=
  let q1u := (-(n b σ - 1) - sqrt ((n b σ - 1) ^ 2 + 4 * m r σ)) / 2
  let Su := K / (1 - 1 / q1u)
  let h1 := (b * t - 2 * σ * sqrt t) * K / (K - Su)
  Su + (K - Su) * expD h1

/-- `__init__.py:574-612` `BAWAmericanApproxOption.put`, with a volatility, as `BAWFloat.Put` but from `seedPutD`. -/
def PutD (S K t r b σ : ℝ) (x : Fl) : Prop :=
  ∃ Sk, NewtonPut (num K) (num t) (num r) (num b) (num σ) (seedPutD (num K) (num t) (num r) (num b) (num σ)) Sk ∧
    ((lt Sk (num S) ∧ x = gbsPut (num S) (num K) (num t) (num r) (num b) (num σ)
      + -(Sk / Q1 (num t) (num r) (num b) (num σ))
          * (1 - exp ((num b - num r) * num t) * Fl.CND (-(d1 (num K) (num t) (num b) (num σ) Sk)))
        * rpow (num S / Sk) (Q1 (num t) (num r) (num b) (num σ)))
    ∨ (¬ lt Sk (num S) ∧ x = num K - num S))

end BAWFloat
end Verif
