import Verif.Model.TreeFl

/-! The standard model of rounded arithmetic. -/
namespace Verif.Spec

/-- Every operation returns the exact result up to a relative error `e`. (IEEE double precision without
overflow and underflow: the four operations and the square root with `e = 2⁻⁵³`; `exp` and `pow` with the
error of the library in use.) -/
structure Rounded (e : ℝ) (A : Arith) : Prop where
  add : ∀ x y, |A.add x y - (x + y)| ≤ e * |x + y|
  sub : ∀ x y, |A.sub x y - (x - y)| ≤ e * |x - y|
  mul : ∀ x y, |A.mul x y - x * y| ≤ e * |x * y|
  div : ∀ x y, |A.div x y - x / y| ≤ e * |x / y|
  pow : ∀ x, ∀ k : ℕ, |A.pow x k - x ^ k| ≤ e * |x ^ k|
  sqrt : ∀ x, |A.sqrt x - √x| ≤ e * √x
  exp : ∀ x, |A.exp x - Real.exp x| ≤ e * Real.exp x

end Verif.Spec
