import Verif.Model.GBSFl

/-! The analytic greeks of `GBSOption` over an arbitrary arithmetic.

Same functions as in `Model/GBS`, with every arithmetic operation an operation of a record `ArithT` and in
the order in which Python evaluates it. Construction with `sigma` given; overflow and underflow are not
modelled. -/
namespace Verif.GreeksFl
open GBSFl

variable (A : ArithT)

/-- The factor `exp((b - r) * t)` of vanillaoptions.py:171, 208, 267, 362, 407, 442. -/
def carry (t r b : ℝ) : ℝ := A.exp (A.mul (A.sub b r) t)

/-- The factor `exp(-r * t)` of vanillaoptions.py:222, 307. -/
def disc (t r : ℝ) : ℝ := A.exp (A.mul (-r) t)

/-- vanillaoptions.py:169-175 `delta(call, method="analytic")`. -/
noncomputable def delta (S K t r b σ : ℝ) (isCall : Bool) : ℝ :=
  let d := d1 A S K t b σ
  if isCall then A.mul (carry A t r b) (cnd A d) else A.mul (carry A t r b) (A.sub (cnd A d) 1)

/-- vanillaoptions.py:206-211 `Theta1`; the unary minus is applied before the division. -/
noncomputable def theta1 (S K t r b σ : ℝ) : ℝ :=
  A.div (-(A.mul (A.mul (A.mul S (carry A t r b)) (ndf A (d1 A S K t b σ))) σ)) (A.mul 2 (A.sqrt t))

/-- vanillaoptions.py:204-236 `theta(call, method="analytic")`. -/
noncomputable def theta (S K t r b σ : ℝ) (isCall : Bool) : ℝ :=
  let e1 := d1 A S K t b σ
  let e2 := d2 A e1 σ t
  if isCall then
    A.sub (A.sub (theta1 A S K t r b σ) (A.mul (A.mul (A.mul (A.sub b r) S) (carry A t r b)) (cnd A e1)))
      (A.mul (A.mul (A.mul r K) (disc A t r)) (cnd A e2))
  else
    A.add (A.add (theta1 A S K t r b σ) (A.mul (A.mul (A.mul (A.sub b r) S) (carry A t r b)) (cnd A (-e1))))
      (A.mul (A.mul (A.mul r K) (disc A t r)) (cnd A (-e2)))

/-- vanillaoptions.py:264-270 `vega(method="analytic")`. -/
noncomputable def vega (S K t r b σ : ℝ) : ℝ :=
  A.mul (A.mul (A.mul S (carry A t r b)) (ndf A (d1 A S K t b σ))) (A.sqrt t)

open Classical in
/-- vanillaoptions.py:299-324 `rho(call, method="analytic")`. -/
noncomputable def rho (S K t r b σ : ℝ) (isCall : Bool) : ℝ :=
  let e2 := d2 A (d1 A S K t b σ) σ t
  if b ≠ 0 then
    if isCall then A.mul (A.mul (A.mul t K) (disc A t r)) (cnd A e2)
    else A.mul (A.mul (A.mul (-t) K) (disc A t r)) (cnd A (-e2))
  else A.mul (-t) (price A S K t r b σ isCall)

/-- vanillaoptions.py:357-377 `lamb(call, method="analytic")`. -/
noncomputable def lamb (S K t r b σ : ℝ) (isCall : Bool) : ℝ :=
  let d := d1 A S K t b σ
  if isCall then
    A.div (A.mul (A.mul (carry A t r b) (cnd A d)) S) (price A S K t r b σ true)
  else
    A.div (A.mul (A.mul (carry A t r b) (A.sub (cnd A d) 1)) S) (price A S K t r b σ false)

/-- vanillaoptions.py:403-410 `gamma(method="analytic")`. -/
noncomputable def gamma (S K t r b σ : ℝ) : ℝ :=
  A.div (A.mul (carry A t r b) (ndf A (d1 A S K t b σ))) (A.mul (A.mul S σ) (A.sqrt t))

/-- vanillaoptions.py:437-451 `c_of_c(call)`. -/
noncomputable def cOfC (S K t r b σ : ℝ) (isCall : Bool) : ℝ :=
  let d := d1 A S K t b σ
  if isCall then A.mul (A.mul (A.mul t S) (carry A t r b)) (cnd A d)
  else A.mul (A.mul (A.mul (-t) S) (carry A t r b)) (cnd A (-d))

end Verif.GreeksFl
