import Verif.Model.BSPriceFl

/-!
`BSAmericanApproxOption.put` (basic_american_options/__init__.py:799-821) over an abstract arithmetic: the transformation
to a call rounds the difference `r - b`.
-/
namespace Verif.BSPriceFl

/-- `__init__.py:819-821` `put`, option price; `none` where the price is that of `GBSOption`. Negation is exact. -/
noncomputable def put (A : ArithP) (S K T r b σ : ℝ) : Option ℝ := price A K S T (A.sub r b) (-b) σ

end Verif.BSPriceFl
