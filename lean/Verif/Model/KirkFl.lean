import Verif.Model.GBSFl

/-! The prices of `SpreadApproxOption` over an arbitrary arithmetic.

Same functions as in `Model/Classes` (`KirkClass`), but every arithmetic operation of the code is an operation of a record
`ArithT`. Unary minus is exact on floats, and so are the constants `0.5` and `2`. The short side of the spread is computed
again in `call()` and `put()`, by the same operations. Overflow and underflow are not modelled. -/
namespace Verif.KirkFl

variable (A : ArithT)

/-- spread_options/spreadapprox.py:106-107 `_e1`, `_e2`: `exp((b - r) * t)`. -/
def carry (b r t : ℝ) : ℝ := A.exp (A.mul (A.sub b r) t)

/-- spreadapprox.py:109, 111 `Q * S * e`. -/
def leg (Q S b r t : ℝ) : ℝ := A.mul (A.mul Q S) (carry A b r t)

/-- spreadapprox.py:109, 111, 144, 169 `Q2 * S2 * e2 + K * exp(-r * t)`. -/
def short (S2 K t r b2 Q2 : ℝ) : ℝ := A.add (leg A Q2 S2 b2 r t) (A.mul K (A.exp (A.mul (-r) t)))

/-- spreadapprox.py:109 `_S`. -/
def ratio (S1 S2 K t r b1 b2 Q1 Q2 : ℝ) : ℝ := A.div (leg A Q1 S1 b1 r t) (short A S2 K t r b2 Q2)

/-- spreadapprox.py:111 `F`. -/
def share (S2 K t r b2 Q2 : ℝ) : ℝ := A.div (leg A Q2 S2 b2 r t) (short A S2 K t r b2 Q2)

/-- spreadapprox.py:113-115 `_sigma`. -/
def sigma (σ1 σ2 ρ F : ℝ) : ℝ :=
  A.sqrt (A.sub (A.add (A.pow σ1 2) (A.pow (A.mul σ2 F) 2)) (A.mul (A.mul (A.mul (A.mul 2 ρ) σ1) σ2) F))

/-- spreadapprox.py:117-119 `_d1`. -/
noncomputable def d1 (S t σ : ℝ) : ℝ :=
  A.div (A.add (A.log S) (A.mul (A.mul 0.5 (A.pow σ 2)) t)) (A.mul σ (A.sqrt t))

/-- spreadapprox.py:121 `_d2`. -/
def d2 (d1 σ t : ℝ) : ℝ := A.sub d1 (A.mul σ (A.sqrt t))

/-- spreadapprox.py:106-121, 144-146, 169-171: construction, then `call()` or `put()`. -/
noncomputable def price (isCall : Bool) (S1 S2 K t r b1 b2 σ1 σ2 ρ Q1 Q2 : ℝ) : ℝ :=
  let S := ratio A S1 S2 K t r b1 b2 Q1 Q2
  let σ := sigma A σ1 σ2 ρ (share A S2 K t r b2 Q2)
  let e1 := d1 A S t σ
  let e2 := d2 A e1 σ t
  if isCall then A.mul (short A S2 K t r b2 Q2) (A.sub (A.mul S (GBSFl.cnd A e1)) (GBSFl.cnd A e2))
  else A.mul (short A S2 K t r b2 Q2) (A.add (A.mul (-S) (GBSFl.cnd A (-e1))) (GBSFl.cnd A (-e2)))

end Verif.KirkFl
