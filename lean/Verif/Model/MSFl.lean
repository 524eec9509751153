import Verif.Model.GBSFl

/-! The prices of `MiltersenSchwartzOption` over an arbitrary arithmetic.

Same functions as `Model/Classes` (`MSClass`), with every arithmetic operation an operation of a record
`ArithT` and in the order in which Python evaluates it. Overflow and underflow are not modelled. -/
namespace Verif.MSFl

variable (A : ArithT)

local notation:65 x:65 " +ᶠ " y:66 => Arith.add (ArithT.toArith A) x y
local notation:65 x:65 " -ᶠ " y:66 => Arith.sub (ArithT.toArith A) x y
local notation:70 x:70 " *ᶠ " y:71 => Arith.mul (ArithT.toArith A) x y
local notation:70 x:70 " /ᶠ " y:71 => Arith.div (ArithT.toArith A) x y
local notation:max "e^" x:max => Arith.exp (ArithT.toArith A) x
local notation:max "sq" x:max => Arith.pow (ArithT.toArith A) x 2

/-- vanillaoptions.py:678-690, the first assignment to `self._vz` (a variance). -/
def vz2 (σS σE σF ρSE ρSF ρEF κE κF t T : ℝ) : ℝ :=
  sq σS *ᶠ t +ᶠ 2 *ᶠ σS *ᶠ (σF *ᶠ ρSF *ᶠ 1 /ᶠ κF *ᶠ (t -ᶠ 1 /ᶠ κF *ᶠ e^(-κF *ᶠ T) *ᶠ (e^(κF *ᶠ t) -ᶠ 1))
    -ᶠ σE *ᶠ ρSE *ᶠ 1 /ᶠ κE *ᶠ (t -ᶠ 1 /ᶠ κE *ᶠ e^(-κE *ᶠ T) *ᶠ (e^(κE *ᶠ t) -ᶠ 1)))
    +ᶠ sq σE *ᶠ 1 /ᶠ sq κE *ᶠ (t +ᶠ 1 /ᶠ (2 *ᶠ κE) *ᶠ e^(-2 *ᶠ κE *ᶠ T) *ᶠ (e^(2 *ᶠ κE *ᶠ t) -ᶠ 1)
      -ᶠ 2 *ᶠ 1 /ᶠ κE *ᶠ e^(-κE *ᶠ T) *ᶠ (e^(κE *ᶠ t) -ᶠ 1))
    +ᶠ sq σF *ᶠ 1 /ᶠ sq κF *ᶠ (t +ᶠ 1 /ᶠ (2 *ᶠ κF) *ᶠ e^(-2 *ᶠ κF *ᶠ T) *ᶠ (e^(2 *ᶠ κF *ᶠ t) -ᶠ 1)
      -ᶠ 2 *ᶠ 1 /ᶠ κF *ᶠ e^(-κF *ᶠ T) *ᶠ (e^(κF *ᶠ t) -ᶠ 1))
    -ᶠ 2 *ᶠ σE *ᶠ σF *ᶠ ρEF *ᶠ 1 /ᶠ κE *ᶠ 1 /ᶠ κF *ᶠ (t -ᶠ 1 /ᶠ κE *ᶠ e^(-κE *ᶠ T) *ᶠ (e^(κE *ᶠ t) -ᶠ 1)
      -ᶠ 1 /ᶠ κF *ᶠ e^(-κF *ᶠ T) *ᶠ (e^(κF *ᶠ t) -ᶠ 1)
      +ᶠ 1 /ᶠ (κE +ᶠ κF) *ᶠ e^(-(κE +ᶠ κF) *ᶠ T) *ᶠ (e^((κE +ᶠ κF) *ᶠ t) -ᶠ 1))

/-- vanillaoptions.py:691-699, `self._vxz`. -/
def vxz (σS σE σF ρSF ρEF κE κF t T : ℝ) : ℝ :=
  σF *ᶠ 1 /ᶠ κF *ᶠ (σS *ᶠ ρSF *ᶠ (t -ᶠ 1 /ᶠ κF *ᶠ (1 -ᶠ e^(-κF *ᶠ t)))
    +ᶠ σF *ᶠ 1 /ᶠ κF *ᶠ (t -ᶠ 1 /ᶠ κF *ᶠ e^(-κF *ᶠ T) *ᶠ (e^(κF *ᶠ t) -ᶠ 1) -ᶠ 1 /ᶠ κF *ᶠ (1 -ᶠ e^(-κF *ᶠ t))
      +ᶠ 1 /ᶠ (2 *ᶠ κF) *ᶠ e^(-κF *ᶠ T) *ᶠ (e^(κF *ᶠ t) -ᶠ e^(-κF *ᶠ t)))
    -ᶠ σE *ᶠ ρEF *ᶠ 1 /ᶠ κE *ᶠ (t -ᶠ 1 /ᶠ κE *ᶠ e^(-κE *ᶠ T) *ᶠ (e^(κE *ᶠ t) -ᶠ 1)
      -ᶠ 1 /ᶠ κF *ᶠ (1 -ᶠ e^(-κF *ᶠ t))
      +ᶠ 1 /ᶠ (κE +ᶠ κF) *ᶠ e^(-κE *ᶠ T) *ᶠ (e^(κE *ᶠ t) -ᶠ e^(-κF *ᶠ t))))

/-- vanillaoptions.py:703, `self._d1` from `_vz` (after the square root) and `_vxz`. -/
def d1 (FT K v c : ℝ) : ℝ := (A.log (FT /ᶠ K) -ᶠ c +ᶠ sq v /ᶠ 2) /ᶠ v

/-- vanillaoptions.py:704, `self._d2`. -/
def d2 (FT K v c : ℝ) : ℝ := (A.log (FT /ᶠ K) -ᶠ c -ᶠ sq v /ᶠ 2) /ᶠ v

/-- vanillaoptions.py:733, 761: `call` and `put` from `_vz`, `_vxz`. -/
noncomputable def value (isCall : Bool) (Pt FT K v c : ℝ) : ℝ :=
  if isCall then
    Pt *ᶠ (FT *ᶠ e^(-c) *ᶠ GBSFl.cnd A (d1 A FT K v c) -ᶠ K *ᶠ GBSFl.cnd A (d2 A FT K v c))
  else
    Pt *ᶠ (K *ᶠ GBSFl.cnd A (-d2 A FT K v c) -ᶠ FT *ᶠ e^(-c) *ᶠ GBSFl.cnd A (-d1 A FT K v c))

/-- Construction (vanillaoptions.py:660-708) followed by `call()` or `put()`; line 701 takes the root. -/
noncomputable def price (isCall : Bool) (Pt FT K t T σS σE σF ρSE ρSF ρEF κE κF : ℝ) : ℝ :=
  value A isCall Pt FT K (A.sqrt (vz2 A σS σE σF ρSE ρSF ρEF κE κF t T)) (vxz A σS σE σF ρSF ρEF κE κF t T)

end Verif.MSFl
