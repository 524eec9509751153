import Verif.Model.BSFl
import Verif.Model.GBSFl

/-!
The price of `BSAmericanApproxOption` below the trigger (basic_american_options/__init__.py:841-876) over an abstract
arithmetic, in the order of the code. `0.5` is exact; `**` with an exponent that is not a literal is a further operation.
-/
namespace Verif

/-- Arithmetic operations, elementary functions and powers as the machine evaluates them. -/
structure ArithP extends ArithT where
  rpow : ℝ → ℝ → ℝ

/-- Exact arithmetic. -/
noncomputable def ArithP.exact : ArithP := { ArithT.exact with rpow := fun x y => x ^ y }

namespace BSPriceFl
variable (A : ArithP)

/-- `__init__.py:861` `lamb`. -/
noncomputable def lamb (T γ r b σ : ℝ) : ℝ :=
  A.mul (A.add (A.add (-r) (A.mul γ b)) (A.mul (A.mul (A.mul 0.5 γ) (A.sub γ 1)) (A.pow σ 2))) T

/-- `__init__.py:862-864` `d`. -/
noncomputable def d (S T γ H b σ : ℝ) : ℝ :=
  A.div (-(A.add (A.log (A.div S H)) (A.mul (A.add b (A.mul (A.sub γ 0.5) (A.pow σ 2))) T))) (A.mul σ (A.sqrt T))

/-- `__init__.py:865` `kappa`. -/
noncomputable def kappa (γ b σ : ℝ) : ℝ := A.add (A.div (A.mul 2 b) (A.pow σ 2)) (A.sub (A.mul 2 γ) 1)

/-- `__init__.py:857-876` `_bsPhi`. -/
noncomputable def phi (S T γ H I r b σ : ℝ) : ℝ :=
  A.mul (A.mul (A.exp (lamb A T γ r b σ)) (A.rpow S γ))
    (A.sub (GBSFl.cnd A.toArithT (d A S T γ H b σ))
      (A.mul (A.rpow (A.div I S) (kappa A γ b σ))
        (GBSFl.cnd A.toArithT (A.sub (d A S T γ H b σ)
          (A.div (A.mul 2 (A.log (A.div I S))) (A.mul σ (A.sqrt T)))))))

/-- `__init__.py:841` `alpha`. -/
noncomputable def alpha (X I β : ℝ) : ℝ := A.mul (A.sub I X) (A.rpow I (-β))

/-- `__init__.py:846-851`: the price below the trigger `I`, for the exponent `β`. -/
noncomputable def below (S X T r b σ I β : ℝ) : ℝ :=
  A.add (A.sub (A.sub (A.add (A.sub (A.mul (alpha A X I β) (A.rpow S β)) (A.mul (alpha A X I β) (phi A S T β I I r b σ)))
    (phi A S T 1 I I r b σ)) (phi A S T 1 X I r b σ)) (A.mul X (phi A S T 0 I I r b σ))) (A.mul X (phi A S T 0 X I r b σ))

open Classical in
/-- `__init__.py:823-855` `_BSAmericanCallApprox`, option price; `none` for `b >= r`, where the price is that of `GBSOption`. -/
noncomputable def price (S X T r b σ : ℝ) : Option ℝ :=
  if b ≥ r then none
  else if S ≥ BSFl.trigger A.toArith X T r b σ then some (A.sub S X)
  else some (below A S X T r b σ (BSFl.trigger A.toArith X T r b σ) (BSFl.beta A.toArith r b σ))

end BSPriceFl
end Verif
