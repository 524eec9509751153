import Verif.Model.TreeFl

/-!
The trigger price of `BSAmericanApproxOption` (basic_american_options/__init__.py:823-855) over an abstract arithmetic:
every operation of the code, in the order of the code, is a function of the record `Arith`. `1 / 2` is exact. The price
below the trigger is left out.
-/
namespace Verif.BSFl

variable (A : Arith)

/-- `__init__.py:833-835` `Beta`. -/
noncomputable def beta (r b σ : ℝ) : ℝ :=
  A.add (A.sub (1 / 2) (A.div b (A.pow σ 2)))
    (A.sqrt (A.add (A.pow (A.sub (A.div b (A.pow σ 2)) (1 / 2)) 2) (A.div (A.mul 2 r) (A.pow σ 2))))

/-- `__init__.py:836` `BInfinity`. -/
noncomputable def bInf (X r b σ : ℝ) : ℝ := A.mul (A.div (beta A r b σ) (A.sub (beta A r b σ) 1)) X

/-- `__init__.py:837` `B0`. -/
noncomputable def b0 (X r b : ℝ) : ℝ := max X (A.mul (A.div r (A.sub r b)) X)

/-- `__init__.py:838` `ht`. -/
noncomputable def ht (X T r b σ : ℝ) : ℝ :=
  A.div (A.mul (-(A.add (A.mul b T) (A.mul (A.mul 2 σ) (A.sqrt T)))) (b0 A X r b)) (A.sub (bInf A X r b σ) (b0 A X r b))

/-- `__init__.py:840` `I`. -/
noncomputable def trigger (X T r b σ : ℝ) : ℝ :=
  A.add (b0 A X r b) (A.mul (A.sub (bInf A X r b σ) (b0 A X r b)) (A.sub 1 (A.exp (ht A X T r b σ))))

open Classical in
/-- `__init__.py:826, 842-843`: the price if the option is exercised at once, `none` on the other branches. -/
noncomputable def exercised (S X T r b σ : ℝ) : Option ℝ :=
  if b ≥ r then none else if S ≥ trigger A X T r b σ then some (A.sub S X) else none

end Verif.BSFl
