import Verif.Model.TreeFl
import Verif.Model.GBS

/-! The prices of `GBSOption` over an arbitrary arithmetic.

Same functions as in `Model/Normal` and `Model/GBS`, but every arithmetic operation of the code is an
operation of a record `ArithT`, including the conversion of the decimal literals. `abs`, `sign`, unary
minus and comparison are exact on floats and are taken over from the reals; the constants `0.5`, `1`, `2`
and `8` are floats. Overflow and underflow are not modelled. -/
namespace Verif

/-- The arithmetic of the tree code together with `log`, `atan` and the value of a decimal literal. -/
structure ArithT extends Arith where
  log : ℝ → ℝ
  atan : ℝ → ℝ
  lit : ℝ → ℝ

/-- Exact arithmetic. -/
noncomputable def ArithT.exact : ArithT := { Arith.exact with log := Real.log, atan := Real.arctan, lit := id }

namespace GBSFl

variable (A : ArithT)

/-- base.py:36 `_NDF`: `exp(-x*x/2) / sqrt(8*atan(1))`. -/
def ndf (x : ℝ) : ℝ := A.div (A.exp (A.div (A.mul (-x) x) 2)) (A.sqrt (A.mul 8 (A.atan 1)))

/-- base.py:57 `k = 1 / (1 + 0.2316419*abs(x))`. -/
def cndK (x : ℝ) : ℝ := A.div 1 (A.add 1 (A.mul (A.lit 0.2316419) |x|))

/-- base.py:58-65, the polynomial `a1*k + … + a5*k**5` of `_CND`, added up from the left. -/
def cndPoly (k : ℝ) : ℝ :=
  A.add (A.add (A.add (A.add (A.mul (A.lit 0.319381530) k)
    (A.mul (-A.lit 0.356563782) (A.pow k 2))) (A.mul (A.lit 1.781477937) (A.pow k 3)))
    (A.mul (-A.lit 1.821255978) (A.pow k 4))) (A.mul (A.lit 1.330274429) (A.pow k 5))

/-- base.py:57-70 `_CND`. -/
noncomputable def cnd (x : ℝ) : ℝ :=
  let result := A.sub (A.mul (ndf A x) (cndPoly A (cndK A x))) 0.5
  A.sub 0.5 (A.mul result (npSign x))

/-- vanillaoptions.py:70-73, the expression assigned to `_d1`. -/
def d1 (S K t b σ : ℝ) : ℝ :=
  A.div (A.add (A.log (A.div S K)) (A.mul (A.add b (A.div (A.mul σ σ) 2)) t)) (A.mul σ (A.sqrt t))

/-- vanillaoptions.py:75, the expression assigned to `_d2`. -/
def d2 (d1 σ t : ℝ) : ℝ := A.sub d1 (A.mul σ (A.sqrt t))

/-- vanillaoptions.py:70-75, 103-111: construction with `sigma` given and `call`. -/
noncomputable def call (S K t r b σ : ℝ) : ℝ :=
  let e1 := d1 A S K t b σ
  let e2 := d2 A e1 σ t
  A.sub (A.mul (A.mul S (A.exp (A.mul (A.sub b r) t))) (cnd A e1))
    (A.mul (A.mul K (A.exp (A.mul (-r) t))) (cnd A e2))

/-- vanillaoptions.py:70-75, 132-140: construction with `sigma` given and `put`. -/
noncomputable def put (S K t r b σ : ℝ) : ℝ :=
  let e1 := d1 A S K t b σ
  let e2 := d2 A e1 σ t
  A.sub (A.mul (A.mul K (A.exp (A.mul (-r) t))) (cnd A (-e2)))
    (A.mul (A.mul S (A.exp (A.mul (A.sub b r) t))) (cnd A (-e1)))

/-- `call()` or `put()`. -/
noncomputable def price (S K t r b σ : ℝ) (isCall : Bool) : ℝ :=
  if isCall then call A S K t r b σ else put A S K t r b σ

end GBSFl
end Verif
